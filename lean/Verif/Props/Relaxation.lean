import Mathlib.Tactic.Common
import Verif.Relaxation
import Verif.Props.Effects
/-! C28 (delete relaxation) and C29 (expansion of universal effects). -/
namespace Tarski

/-! ### C28: specification -/

mutual
/-- Positive formulas: predicates occur under no negation, and not in conditions of if-then-else terms. (Negated
comparisons are allowed.) -/
def PosF : Formula → Prop
  | .top => True
  | .bot => True
  | .atom _ ts => ∀ p, ¬ UsesTs (.pred p) ts
  | .comp _ .not fs => ∀ p, ¬ UsesFs (.pred p) fs
  | .comp _ .and fs => PosFs fs
  | .comp _ .or fs => PosFs fs
  | .quant _ _ f => PosF f
def PosFs : List Formula → Prop
  | [] => True
  | f :: fs => PosF f ∧ PosFs fs
end

mutual
/-- All conditions of an effect and its sub-effects are positive; nothing is asked of deletes. -/
def PosE : Effect → Prop
  | .add c _ _ => PosF c
  | .del _ _ _ => True
  | .lit c _ => PosF c
  | .assign c _ _ _ => PosF c
  | .univ c _ es => PosF c ∧ PosEs es
def PosEs : List Effect → Prop
  | [] => True
  | e :: es => PosE e ∧ PosEs es
end

/-- `r` makes at least the atoms of `m` true and agrees on all function values. -/
def Leq (L : MLang) (m r : MState) : Prop :=
  (∀ p pt, m.holds L p pt = true → r.holds L p pt = true) ∧ (∀ f pt, m.value L f pt = r.value L f pt)

mutual
/-- The effect contains no delete, at any depth. -/
def NoDel : Effect → Prop
  | .del _ _ _ => False
  | .univ _ _ es => NoDels es
  | _ => True
def NoDels : List Effect → Prop
  | [] => True
  | e :: es => NoDel e ∧ NoDels es
end

/-! ### Lemmas -/

theorem Leq.refl (L : MLang) (m : MState) : Leq L m m := ⟨fun _ _ h => h, fun _ _ => rfl⟩
theorem Leq.trans {L : MLang} {a b c : MState} (h1 : Leq L a b) (h2 : Leq L b c) : Leq L a c :=
  ⟨fun p pt h => h2.1 p pt (h1.1 p pt h), fun f pt => (h1.2 f pt).trans (h2.2 f pt)⟩

theorem sameOn_nopred {L : MLang} {m r : MState} (h : Leq L m r) {U : Sym → Prop} (hu : ∀ p, ¬ U (.pred p)) :
    ∀ x, U x → SameOn L m r x := by
  intro x hx
  cases x with
  | pred p => exact absurd hx (hu p)
  | fn f => exact h.2 f

mutual
theorem pos_mono {L : MLang} {m r : MState} {σ} (h : Leq L m r) : ∀ f, PosF f → evFormula L m σ f = .ok true →
    evFormula L r σ f ≠ .ok false
  | .top, _, _ => by simp [evFormula]
  | .bot, _, ht => by simp [evFormula] at ht
  | .atom (.user p) ts, hp, ht => by
    have := evTerms_same (σ := σ) .eval ts (sameOn_nopred h hp)
    simp only [evFormula, ← this] at ht ⊢
    cases hc : evTerms L m σ .eval ts with
    | error e => simp
    | ok pt =>
      simp only [hc, Except.ok.injEq] at ht
      simp [h.1 p pt ht]
  | .atom (.cmp c) ts, hp, ht => by
    have := evTerms_same (σ := σ) .eval ts (sameOn_nopred h hp)
    simp only [evFormula, ← this] at ht ⊢
    rw [ht]; simp
  | .comp k .not fs, hp, ht => by
    have := evFormula_same (σ := σ) (.comp k .not fs) (sameOn_nopred h (U := fun x => UsesF x (.comp k .not fs))
      (fun p => by simpa [UsesF] using hp p))
    rw [← this, ht]; simp
  | .comp _ .and fs, hp, ht => by
    simp only [evFormula] at ht ⊢
    exact pos_all h fs hp ht
  | .comp _ .or fs, hp, ht => by
    simp only [evFormula] at ht ⊢
    exact pos_any h fs hp ht
  | .quant _ _ _, _, ht => by simp [evFormula] at ht
theorem pos_all {L : MLang} {m r : MState} {σ} (h : Leq L m r) : ∀ fs, PosFs fs → evAll L m σ fs = .ok true →
    evAll L r σ fs ≠ .ok false
  | [], _, _ => by simp [evAll]
  | f :: fs, hp, ht => by
    simp only [evAll] at ht ⊢
    cases hm : evFormula L m σ f with
    | error e => simp [hm] at ht
    | ok b =>
      cases b with
      | false => simp [hm] at ht
      | true =>
        simp only [hm] at ht
        have h1 := pos_mono h f hp.1 hm
        have h2 := pos_all h fs hp.2 ht
        cases hr : evFormula L r σ f with
        | error e => simp
        | ok b => cases b with
          | true => simpa using h2
          | false => exact absurd hr h1
theorem pos_any {L : MLang} {m r : MState} {σ} (h : Leq L m r) : ∀ fs, PosFs fs → evAny L m σ fs = .ok true →
    evAny L r σ fs ≠ .ok false
  | [], _, ht => by simp [evAny] at ht
  | f :: fs, hp, ht => by
    simp only [evAny] at ht ⊢
    cases hr : evFormula L r σ f with
    | error e => simp
    | ok b =>
      cases b with
      | true => simp
      | false =>
        simp only
        cases hm : evFormula L m σ f with
        | error e => simp [hm] at ht
        | ok b => cases b with
          | true => exact absurd hr (pos_mono h f hp.1 hm)
          | false => simp only [hm] at ht; exact pos_any h fs hp.2 ht
end

mutual
theorem posF_sub {s : Subst} (hc : ValsConst s) : ∀ f, PosF f → PosF (subF s f)
  | .top, h => h
  | .bot, h => h
  | .atom _ ts, h => fun p hu => h p (uses_subTs hc _ ts hu)
  | .comp _ .not fs, h => fun p hu => h p (uses_subFs hc _ fs hu)
  | .comp _ .and fs, h => posFs_sub hc fs h
  | .comp _ .or fs, h => posFs_sub hc fs h
  | .quant _ _ f, h => posF_sub hc f h
theorem posFs_sub {s : Subst} (hc : ValsConst s) : ∀ fs, PosFs fs → PosFs (subFs s fs)
  | [], h => h
  | f :: fs, h => ⟨posF_sub hc f h.1, posFs_sub hc fs h.2⟩
end

mutual
theorem posE_sub {s : Subst} (hc : ValsConst s) : ∀ e, PosE e → PosE (subE s e)
  | .add c _ _, h => posF_sub hc c h
  | .del _ _ _, h => h
  | .lit c _, h => posF_sub hc c h
  | .assign c _ _ _, h => posF_sub hc c h
  | .univ c _ es, h => ⟨posF_sub hc _ (posF_sub hc c h.1), posEs_sub hc es h.2⟩
theorem posEs_sub {s : Subst} (hc : ValsConst s) : ∀ es, PosEs es → PosEs (subEs s es)
  | [], h => h
  | e :: es, h => ⟨posE_sub hc e h.1, posEs_sub hc es h.2⟩
end

mutual
theorem removeDel_sub (s : Subst) : ∀ e l, removeDel e = .ok l → removeDel (subE s e) = .ok (subEs s l)
  | .add c p ts, l, h => by simp only [removeDel, Except.ok.injEq] at h; subst h; simp [removeDel, subE, subEs]
  | .del c p ts, l, h => by simp only [removeDel, Except.ok.injEq] at h; subst h; simp [removeDel, subE, subEs]
  | .lit c f, l, h => by simp [removeDel] at h
  | .assign c f ts r, l, h => by simp [removeDel] at h
  | .univ c vs es, l, h => by
    simp only [removeDel] at h
    cases h1 : removeDels es with
    | error er => simp [h1] at h
    | ok es' =>
      simp only [h1, Except.ok.injEq] at h
      subst h
      simp [removeDel, subE, subEs, removeDels_sub s es es' h1]
theorem removeDels_sub (s : Subst) : ∀ es l, removeDels es = .ok l → removeDels (subEs s es) = .ok (subEs s l)
  | [], l, h => by simp only [removeDels, Except.ok.injEq] at h; subst h; simp [removeDels, subEs]
  | e :: es, l, h => by
    simp only [removeDels] at h
    cases h1 : removeDel e with
    | error er => simp [h1] at h
    | ok r =>
      cases h2 : removeDels es with
      | error er => simp [h1, h2] at h
      | ok rs =>
        simp only [h1, h2, Except.ok.injEq] at h
        subst h
        simp only [subEs, removeDels, removeDel_sub s e r h1, removeDels_sub s es rs h2, Except.ok.injEq]
        simp [subEs_eq_map]
end

mutual
/-- The output of `remove_delete_effects` contains no delete effect, at any depth. -/
theorem removeDel_noDel : ∀ e l, removeDel e = .ok l → NoDels l
  | .add c p ts, l, h => by simp only [removeDel, Except.ok.injEq] at h; subst h; simp [NoDels, NoDel]
  | .del c p ts, l, h => by simp only [removeDel, Except.ok.injEq] at h; subst h; simp [NoDels]
  | .lit c f, l, h => by simp [removeDel] at h
  | .assign c f ts r, l, h => by simp [removeDel] at h
  | .univ c vs es, l, h => by
    simp only [removeDel] at h
    cases h1 : removeDels es with
    | error er => simp [h1] at h
    | ok es' =>
      simp only [h1, Except.ok.injEq] at h
      subst h
      simp [NoDels, NoDel, removeDels_noDel es es' h1]
theorem removeDels_noDel : ∀ es l, removeDels es = .ok l → NoDels l
  | [], l, h => by simp only [removeDels, Except.ok.injEq] at h; subst h; simp [NoDels]
  | e :: es, l, h => by
    simp only [removeDels] at h
    cases h1 : removeDel e with
    | error er => simp [h1] at h
    | ok r =>
      cases h2 : removeDels es with
      | error er => simp [h1, h2] at h
      | ok rs =>
        simp only [h1, h2, Except.ok.injEq] at h
        subst h
        exact noDels_append (removeDel_noDel e r h1) (removeDels_noDel es rs h2)
theorem noDels_append : ∀ {a b : List Effect}, NoDels a → NoDels b → NoDels (a ++ b)
  | [], _, _, hb => hb
  | _ :: _, _, ha, hb => ⟨ha.1, noDels_append ha.2 hb⟩
end

theorem noDels_iff {es : List Effect} : NoDels es ↔ ∀ e ∈ es, NoDel e := by
  induction es with
  | nil => simp [NoDels]
  | cons e es ih => simp [NoDels, ih]

theorem posEs_iff {es : List Effect} : PosEs es ↔ ∀ e ∈ es, PosE e := by
  induction es with
  | nil => simp [PosEs]
  | cons e es ih => simp [PosEs, ih]

theorem leq_add {L : MLang} {a b : MState} (p : String) (pt : List Const) (h : Leq L a b) :
    Leq L (Change.apply L a (.add p pt)) (Change.apply L b (.add p pt)) := by
  refine ⟨fun q qt => ?_, fun f ft => ?_⟩
  · rw [holds_change, holds_change]
    rintro (h1 | ⟨h1, h2⟩)
    · exact .inl h1
    · exact .inr ⟨h.1 q qt h1, h2⟩
  · refine value_ext (fun c => ?_)
    rw [value_change, value_change, h.2]

theorem leq_add_self (L : MLang) (b : MState) (p : String) (pt : List Const) : Leq L b (Change.apply L b (.add p pt)) := by
  refine ⟨fun q qt h => ?_, fun f ft => ?_⟩
  · rw [holds_change]; exact .inr ⟨h, by simp⟩
  · refine value_ext (fun c => ?_)
    rw [value_change]; simp

/-- What applying an add effect does. -/
theorem applyEffect_add_cases {L : MLang} {dom : Domains} {m m' : MState} {c p ts}
    (h : applyEffect L dom m (.add c p ts) = .ok m') :
    (evFormula L m noSigma c = .ok false ∧ m' = m) ∨
    (evFormula L m noSigma c = .ok true ∧ ∃ n pt, p = .user n ∧ checkAssignment L (L.psorts n) (ts.map termArg) = .ok pt ∧
      m' = Change.apply L m (.add n pt)) := by
  unfold applyEffect applyFuel at h
  simp only [Effect.cond] at h
  cases hc : evFormula L m noSigma c with
  | error er => simp [hc] at h
  | ok b =>
    cases b with
    | false => simp only [hc, Except.ok.injEq] at h; exact .inl ⟨rfl, h.symm⟩
    | true =>
      right
      simp only [hc] at h
      cases p with
      | cmp o => simp [MState.add, raising] at h
      | user n =>
        simp only [MState.add] at h
        cases hk : checkAssignment L (L.psorts n) (ts.map termArg) with
        | error er => simp [hk, raising] at h
        | ok pt =>
          simp only [hk, raising, Except.ok.injEq] at h
          exact ⟨rfl, n, pt, rfl, hk, by rw [← h]; rfl⟩

/-- What applying a delete effect does. -/
theorem applyEffect_del_cases {L : MLang} {dom : Domains} {m m' : MState} {c p ts}
    (h : applyEffect L dom m (.del c p ts) = .ok m') : m' = m ∨ ∃ n pt, m' = Change.apply L m (.del n pt) := by
  unfold applyEffect applyFuel at h
  simp only [Effect.cond] at h
  cases hc : evFormula L m noSigma c with
  | error er => simp [hc] at h
  | ok b =>
    cases b with
    | false => simp only [hc, Except.ok.injEq] at h; exact .inl h.symm
    | true =>
      simp only [hc] at h
      cases p with
      | cmp o => simp only [MState.discardP, raising, Except.ok.injEq] at h; exact .inl h.symm
      | user n =>
        simp only [MState.discardP, MState.discard] at h
        cases hk : dlookup m.preds (L.psig n) with
        | none => simp only [hk, raising, Except.ok.injEq] at h; exact .inl h.symm
        | some ext =>
          cases hw : wrapTuple (ts.map termArg) with
          | error er => simp [hk, hw, raising] at h
          | ok w =>
            cases w with
            | none => simp only [hk, hw, raising, Except.ok.injEq] at h; exact .inl h.symm
            | some pt =>
              simp only [hk, hw, raising, Except.ok.injEq] at h
              refine .inr ⟨n, pt, ?_⟩
              simp only [Change.apply, hk]
              exact h.symm

theorem applyEffect_del_leq {L : MLang} {dom : Domains} {m m' : MState} {c p ts}
    (h : applyEffect L dom m (.del c p ts) = .ok m') : Leq L m' m := by
  rcases applyEffect_del_cases h with rfl | ⟨n, pt, rfl⟩
  · exact Leq.refl ..
  · refine ⟨fun q qt => ?_, fun f ft => ?_⟩
    · rw [holds_change]
      rintro (h1 | ⟨h1, _⟩)
      · simp at h1
      · exact h1
    · refine value_ext (fun c => ?_)
      rw [value_change]; simp

/-- Delete-free add/universal effects only add. -/
theorem deleteFree_grows {L : MLang} {dom : Domains} :
    ∀ e, ∀ l, removeDel e = .ok l → ∀ b b', seqApply (applyEffect L dom) b l = .ok b' → Leq L b b' := by
  intro e
  induction e using Effect.induct with
  | hadd c p ts =>
    intro l hl b b' h
    simp only [removeDel, Except.ok.injEq] at hl
    subst hl
    simp only [seqApply] at h
    cases h1 : applyEffect L dom b (.add c p ts) with
    | error er => simp [h1] at h
    | ok b1 =>
      simp only [h1, Except.ok.injEq] at h
      subst h
      rcases applyEffect_add_cases h1 with ⟨_, rfl⟩ | ⟨_, n, pt, _, _, rfl⟩
      · exact Leq.refl ..
      · exact leq_add_self ..
  | hdel c p ts =>
    intro l hl b b' h
    simp only [removeDel, Except.ok.injEq] at hl
    subst hl
    simp only [seqApply, Except.ok.injEq] at h
    subst h; exact Leq.refl ..
  | hlit c f => intro l hl; simp [removeDel] at hl
  | hassign c f ts r => intro l hl; simp [removeDel] at hl
  | huniv c vs es ih ih0 =>
    clear ih0
    intro l hl b b' h
    simp only [removeDel] at hl
    cases h1 : removeDels es with
    | error er => simp [h1] at hl
    | ok es' =>
      simp only [h1, Except.ok.injEq] at hl
      subst hl
      simp only [seqApply] at h
      cases h2 : applyEffect L dom b (.univ c vs es') with
      | error er => simp [h2] at h
      | ok b1 =>
        simp only [h2, Except.ok.injEq] at h
        subst h
        rw [applyEffect_univ] at h2
        split at h2
        · simp at h2
        · simp only [Except.ok.injEq] at h2; subst h2; exact Leq.refl ..
        · split at h2
          · simp at h2
          · refine seqApply_rel (Leq L) (Leq.refl L) (fun _ _ _ => Leq.trans) (fun s _ m m' hm => ?_) b b1 h2
            rw [← seqApply_map (applyEffect L dom) (subE s)] at hm
            -- the relaxed sub-effects, one source effect at a time
            clear h2
            induction es generalizing es' m with
            | nil =>
              simp only [removeDels, Except.ok.injEq] at h1; subst h1
              simp only [List.map_nil, seqApply, Except.ok.injEq] at hm
              subst hm; exact Leq.refl ..
            | cons e es ih2 =>
              simp only [removeDels] at h1
              cases h3 : removeDel e with
              | error er => simp [h3] at h1
              | ok r =>
                cases h4 : removeDels es with
                | error er => simp [h3, h4] at h1
                | ok rs =>
                  simp only [h3, h4, Except.ok.injEq] at h1
                  subst h1
                  rw [List.map_append, seqApply_append] at hm
                  split at hm
                  · simp at hm
                  · rename_i m1 hm1
                    have := ih e (by simp) s (subEs s r) (removeDel_sub s e r h3) m m1 (by rw [subEs_eq_map]; exact hm1)
                    exact this.trans (ih2 (fun e' he' => ih e' (by simp [he'])) rs h4 m1 hm)

theorem seqApply_simul {α} {f : MState → α → Except Err MState} {g : MState → α → Except Err MState}
    (R : MState → MState → Prop) {as : List α}
    (h : ∀ x ∈ as, ∀ a b a' b', R a b → f a x = .ok a' → g b x = .ok b' → R a' b') :
    ∀ a b a' b', R a b → seqApply f a as = .ok a' → seqApply g b as = .ok b' → R a' b' := by
  induction as with
  | nil =>
    intro a b a' b' hr h1 h2
    simp only [seqApply, Except.ok.injEq] at h1 h2
    subst h1; subst h2; exact hr
  | cons x as ih =>
    intro a b a' b' hr h1 h2
    simp only [seqApply] at h1 h2
    split at h1
    · simp at h1
    · split at h2
      · simp at h2
      · rename_i hf _ _ hg
        exact ih (fun y hy => h y (by simp [hy])) _ _ _ _ (h x (by simp) _ _ _ _ hr hf hg) h1 h2

/-- Simulation for a list of effects and its relaxation, given the simulation for each effect. -/
theorem simul_list {L : MLang} {dom : Domains} {es : List Effect}
    (h : ∀ e ∈ es, ∀ l, removeDel e = .ok l → PosE e → ∀ a b a' b', Leq L a b → applyEffect L dom a e = .ok a' →
      seqApply (applyEffect L dom) b l = .ok b' → Leq L a' b') (hp : PosEs es) :
    ∀ l, removeDels es = .ok l → ∀ a b a' b', Leq L a b → seqApply (applyEffect L dom) a es = .ok a' →
      seqApply (applyEffect L dom) b l = .ok b' → Leq L a' b' := by
  induction es with
  | nil =>
    intro l hl a b a' b' hab h1 h2
    simp only [removeDels, Except.ok.injEq] at hl; subst hl
    simp only [seqApply, Except.ok.injEq] at h1 h2
    subst h1; subst h2; exact hab
  | cons e es ih =>
    intro l hl a b a' b' hab h1 h2
    simp only [removeDels] at hl
    cases h3 : removeDel e with
    | error er => simp [h3] at hl
    | ok r =>
      cases h4 : removeDels es with
      | error er => simp [h3, h4] at hl
      | ok rs =>
        simp only [h3, h4, Except.ok.injEq] at hl
        subst hl
        rw [seqApply_append] at h2
        simp only [seqApply] at h1
        split at h1
        · simp at h1
        · split at h2
          · simp at h2
          · rename_i ha _ _ hb
            exact ih (fun e' he' => h e' (by simp [he'])) hp.2 rs h4 _ _ _ _
              (h e (by simp) r h3 hp.1 _ _ _ _ hab ha hb) h1 h2

theorem simul_effect {L : MLang} {dom : Domains} (hd : ConstDoms dom) :
    ∀ e, ∀ l, removeDel e = .ok l → PosE e → ∀ a b a' b', Leq L a b → applyEffect L dom a e = .ok a' →
      seqApply (applyEffect L dom) b l = .ok b' → Leq L a' b' := by
  intro e
  induction e using Effect.induct with
  | hadd c p ts =>
    intro l hl hp a b a' b' hab h1 h2
    have hgrow := deleteFree_grows _ l hl b b' h2
    simp only [removeDel, Except.ok.injEq] at hl
    subst hl
    rcases applyEffect_add_cases h1 with ⟨_, rfl⟩ | ⟨hc, n, pt, rfl, hk, rfl⟩
    · exact hab.trans hgrow
    · simp only [seqApply] at h2
      cases h3 : applyEffect L dom b (.add c (.user n) ts) with
      | error er => simp [h3] at h2
      | ok b1 =>
        simp only [h3, Except.ok.injEq] at h2
        subst h2
        rcases applyEffect_add_cases h3 with ⟨hf, _⟩ | ⟨_, n', pt', hn, hk', rfl⟩
        · exact absurd hf (pos_mono hab c hp hc)
        · simp only [PSym.user.injEq] at hn
          subst hn
          rw [hk, Except.ok.injEq] at hk'
          subst hk'
          exact leq_add n pt hab
  | hdel c p ts =>
    intro l hl hp a b a' b' hab h1 h2
    simp only [removeDel, Except.ok.injEq] at hl
    subst hl
    simp only [seqApply, Except.ok.injEq] at h2
    subst h2
    exact (applyEffect_del_leq h1).trans hab
  | hlit c f => intro l hl; simp [removeDel] at hl
  | hassign c f ts r => intro l hl; simp [removeDel] at hl
  | huniv c vs es ih _ =>
    intro l hl hp a b a' b' hab h1 h2
    have hgrow := deleteFree_grows _ l hl b b' h2
    simp only [removeDel] at hl
    cases h3 : removeDels es with
    | error er => simp [h3] at hl
    | ok es' =>
      simp only [h3, Except.ok.injEq] at hl
      subst hl
      simp only [seqApply] at h2
      cases h4 : applyEffect L dom b (.univ c vs es') with
      | error er => simp [h4] at h2
      | ok b1 =>
        simp only [h4, Except.ok.injEq] at h2
        subst h2
        rw [applyEffect_univ] at h1 h4
        cases hc : evFormula L a noSigma c with
        | error er => simp [hc] at h1
        | ok v =>
          cases v with
          | false => simp only [hc, Except.ok.injEq] at h1; subst h1; exact hab.trans hgrow
          | true =>
            have hne := pos_mono (σ := noSigma) hab c hp.1 hc
            simp only [hc] at h1
            cases hcb : evFormula L b noSigma c with
            | error er => simp [hcb] at h4
            | ok w =>
              cases w with
              | false => exact absurd hcb hne
              | true =>
                simp only [hcb] at h4
                cases hs : enumSubsts dom vs with
                | error er => simp [hs] at h1
                | ok ss =>
                  simp only [hs] at h1 h4
                  refine seqApply_simul (Leq L) (fun s hsm a b a' b' hab h1 h2 => ?_) a b a' b1 hab h1 h4
                  have hv := enumSubsts_vals hd hs s hsm
                  rw [← seqApply_map (applyEffect L dom) (subE s)] at h1 h2
                  refine simul_list (es := es.map (subE s)) ?_ ?_ (es'.map (subE s)) ?_ a b a' b' hab h1 h2
                  · intro e he
                    obtain ⟨e0, he0, rfl⟩ := List.mem_map.1 he
                    exact ih e0 he0 s
                  · rw [← subEs_eq_map]; exact posEs_sub hv es hp.2
                  · rw [← subEs_eq_map, ← subEs_eq_map]; exact removeDels_sub s es es' h3

theorem removeDels_filter : ∀ es l, removeDels es = .ok l → removeDels (es.filter (fun e => !e.isDel)) = .ok l
  | [], l, h => h
  | e :: es, l, h => by
    simp only [removeDels] at h
    cases h1 : removeDel e with
    | error er => simp [h1] at h
    | ok r =>
      cases h2 : removeDels es with
      | error er => simp [h1, h2] at h
      | ok rs =>
        simp only [h1, h2, Except.ok.injEq] at h
        have ih := removeDels_filter es rs h2
        cases e with
        | del c p ts =>
          simp only [removeDel, Except.ok.injEq] at h1
          subst h1; subst h
          simpa [List.filter_cons, Effect.isDel] using ih
        | _ =>
          rw [List.filter_cons_of_pos (by simp [Effect.isDel])]
          simp only [removeDels, h1, ih, h]

theorem delsFirst_noDels {es : List Effect} (h : NoDels es) : delsFirst es = es := by
  have h1 : ∀ e ∈ es, e.isDel = false := by
    intro e he
    have := noDels_iff.1 h e he
    cases e <;> simp_all [NoDel, Effect.isDel]
  unfold delsFirst
  rw [List.filter_eq_nil_iff.2 (fun e he => by simp [h1 e he]), List.filter_eq_self.2 (fun e he => by simp [h1 e he])]
  rfl

theorem simul_progress {L : MLang} {dom : Domains} (hd : ConstDoms dom) (es l : List Effect)
    (hl : removeDels es = .ok l) (hp : PosEs es) (a b a' b' : MState) (hab : Leq L a b)
    (h1 : progress L dom a es = .ok a') (h2 : progress L dom b l = .ok b') : Leq L a' b' := by
  unfold progress at h1 h2
  rw [delsFirst_noDels (removeDels_noDel es l hl)] at h2
  simp only [delsFirst, seqApply_append] at h1
  split at h1
  · simp at h1
  · rename_i a1 ha1
    have hle : Leq L a1 a := by
      refine seqApply_rel (fun x y => Leq L y x) (Leq.refl L) (fun _ _ _ h1 h2 => h2.trans h1) ?_ a a1 ha1
      intro e he m m' hm
      have := (List.mem_filter.1 he).2
      cases e with
      | del c p ts => exact applyEffect_del_leq hm
      | _ => simp [Effect.isDel] at this
    refine simul_list (fun e _ => simul_effect hd e) ?_ l (removeDels_filter es l hl) a1 b a' b' (hle.trans hab) h1 h2
    rw [posEs_iff] at hp ⊢
    exact fun e he => hp e (List.mem_filter.1 he).1

/-! ### C28 -/

mutual
theorem posF_flattenAux (c : Conn) (hc : c = .and ∨ c = .or) : ∀ f, PosF f → PosFs (flattenAux c f)
  | .comp k d fs, h => by
    simp only [flattenAux]
    split
    · rename_i hdc
      subst hdc
      rcases hc with rfl | rfl
      · exact posF_flattenAuxs .and (.inl rfl) fs h
      · exact posF_flattenAuxs .or (.inr rfl) fs h
    · exact ⟨h, trivial⟩
  | .top, h => ⟨h, trivial⟩
  | .bot, h => ⟨h, trivial⟩
  | .atom p ts, h => ⟨h, trivial⟩
  | .quant q vs f, h => ⟨h, trivial⟩
theorem posF_flattenAuxs (c : Conn) (hc : c = .and ∨ c = .or) : ∀ fs, PosFs fs → PosFs (flattenAuxs c fs)
  | [], h => h
  | f :: fs, h => posFs_append (posF_flattenAux c hc f h.1) (posF_flattenAuxs c hc fs h.2)
theorem posFs_append : ∀ {a b : List Formula}, PosFs a → PosFs b → PosFs (a ++ b)
  | [], _, _, hb => hb
  | _ :: _, _, ha, hb => ⟨ha.1, posFs_append ha.2 hb⟩
end

theorem posF_flatten : ∀ f, PosF f → PosF (flatten f)
  | .comp k .and fs, h => posF_flattenAux .and (.inl rfl) (.comp k .and fs) h
  | .comp k .or fs, h => posF_flattenAux .or (.inr rfl) (.comp k .or fs) h
  | .comp k .not fs, h => h
  | .top, h => h
  | .bot, h => h
  | .atom p ts, h => h
  | .quant q vs f, h => h

/-- A plan step: an action and the constants for its parameters. -/
abbrev Step := Schema × Subst

/-- The ground operators of a sequence of steps. -/
def groundSteps : List Step → Except Err (List Operator)
  | [] => .ok []
  | (a, s) :: rest => match groundSchema a s with
    | .error e => .error e
    | .ok o => match groundSteps rest with
      | .error e => .error e
      | .ok os => .ok (o :: os)

/-- `os'` are the operators of the same steps in the relaxed problem. -/
inductive RelaxedSteps : List Step → List Step → Prop
  | nil : RelaxedSteps [] []
  | cons {a a' s st st'} : relaxSchema a = .ok a' → RelaxedSteps st st' → RelaxedSteps ((a, s) :: st) ((a', s) :: st')

/-- The action has a positive precondition and positive effect conditions. -/
def PosSchema (a : Schema) : Prop := PosF a.pre ∧ PosEs a.effs

theorem ground_relax {a a' : Schema} {s : Subst} {o o' : Operator} (hr : relaxSchema a = .ok a')
    (h : groundSchema a s = .ok o) (h' : groundSchema a' s = .ok o') :
    o = ⟨flatten (subF s a.pre), subEs s a.effs⟩ ∧ o'.pre = o.pre ∧ removeDels o.effs = .ok o'.effs := by
  simp only [relaxSchema] at hr
  cases h1 : removeDels a.effs with
  | error er => simp [h1] at hr
  | ok es =>
    simp only [h1, Except.ok.injEq] at hr
    subst hr
    simp only [groundSchema] at h h'
    split at h
    · simp at h
    · split at h
      · simp at h
      · simp only [*, Except.ok.injEq] at h h'
        subst h; subst h'
        exact ⟨rfl, rfl, removeDels_sub s a.effs es h1⟩

/-- C28: along any plan of the problem whose actions have positive preconditions and conditions, the same steps in the
delete relaxation, started in a state with at least the same atoms, either raise an exception or are applicable one
after the other and lead to a state that has at least the atoms of the original one and the same function values. -/
theorem C28_relaxation (L : MLang) (dom : Domains) (hd : ConstDoms dom) :
    ∀ (steps steps' : List Step) (ops ops' : List Operator) (m m' r : MState) (res : Option MState),
      RelaxedSteps steps steps' → (∀ st ∈ steps, PosSchema st.1 ∧ ValsConst st.2) →
      groundSteps steps = .ok ops → groundSteps steps' = .ok ops' → Leq L m r →
      execPlan L dom m ops = .ok (some m') → execPlan L dom r ops' = .ok res →
      ∃ r', res = some r' ∧ Leq L m' r' := by
  intro steps steps' ops ops' m m' r res hrel
  induction hrel generalizing ops ops' m r with
  | nil =>
    intro _ h1 h2 hle h3 h4
    simp only [groundSteps, Except.ok.injEq] at h1 h2
    subst h1; subst h2
    simp only [execPlan, Except.ok.injEq, Option.some.injEq] at h3 h4
    subst h3; subst h4
    exact ⟨r, rfl, hle⟩
  | @cons a a' s st st' hr hrel ih =>
    intro hpos h1 h2 hle h3 h4
    simp only [groundSteps] at h1 h2
    cases hg : groundSchema a s with
    | error e => simp [hg] at h1
    | ok o =>
    cases hg' : groundSchema a' s with
    | error e => simp [hg'] at h2
    | ok o' =>
    cases hgs : groundSteps st with
    | error e => simp [hg, hgs] at h1
    | ok os =>
    cases hgs' : groundSteps st' with
    | error e => simp [hg', hgs'] at h2
    | ok os' =>
    simp only [hg, hgs, hg', hgs', Except.ok.injEq] at h1 h2
    subst h1; subst h2
    obtain ⟨ho, hpre, heff⟩ := ground_relax hr hg hg'
    obtain ⟨⟨hp1, hp2⟩, hv⟩ := hpos (a, s) (by simp)
    simp only [execPlan, isApplicable] at h3 h4
    have hposf : PosF o.pre := by rw [ho]; exact posF_flatten _ (posF_sub hv _ hp1)
    have hpose : PosEs o.effs := by rw [ho]; exact posEs_sub hv _ hp2
    cases hc : evFormula L m noSigma o.pre with
    | error e => simp [hc] at h3
    | ok v =>
    cases v with
    | false => simp [hc] at h3
    | true =>
    have hne := pos_mono (σ := noSigma) hle _ hposf hc
    cases hc' : evFormula L r noSigma o'.pre with
    | error e => simp [hc'] at h4
    | ok v =>
    cases v with
    | false => rw [hpre] at hc'; exact absurd hc' hne
    | true =>
    simp only [hc, hc'] at h3 h4
    cases hm : progress L dom m o.effs with
    | error e => simp [hm] at h3
    | ok m1 =>
    cases hr1 : progress L dom r o'.effs with
    | error e => simp [hr1] at h4
    | ok r1 =>
    simp only [hm, hr1] at h3 h4
    exact ih os os' m1 r1 (fun x hx => hpos x (by simp [hx])) hgs hgs'
      (simul_progress hd _ _ heff hpose m r m1 r1 hle hm hr1) h3 h4

/-- C28, the goal: a positive goal that is true at the end of the plan is not false at the end of the relaxed one. -/
theorem C28_goal (L : MLang) (m r : MState) (goal : Formula) (hg : PosF goal) (h : Leq L m r)
    (hm : evFormula L m noSigma goal = .ok true) : evFormula L r noSigma goal ≠ .ok false := pos_mono h goal hg hm

/-- C28, the relaxation is delete-free: no delete effect remains at any depth, so states only grow along every
execution of the relaxed problem, and `is_delete_free` answers yes. -/
theorem C28_deleteFree (es l : List Effect) (h : removeDels es = .ok l) :
    NoDels l ∧ containsDels l = .ok false ∧
    (∀ (L : MLang) (dom : Domains) (b b' : MState), progress L dom b l = .ok b' → Leq L b b') := by
  have hn := removeDels_noDel es l h
  refine ⟨hn, ?_, ?_⟩
  · have : ∀ es l, removeDels es = .ok l → containsDels l = .ok false := by
      clear h hn
      have app : ∀ a b, containsDels a = .ok false → containsDels b = .ok false → containsDels (a ++ b) = .ok false := by
        intro a
        induction a with
        | nil => intro b _ hb; exact hb
        | cons x a ih =>
          intro b ha hb
          simp only [containsDels, List.cons_append] at ha ⊢
          cases hx : containsDel x with
          | error er => simp [hx] at ha
          | ok v => cases v with
            | true => simp [hx] at ha
            | false => simp only [hx] at ha ⊢; exact ih b ha hb
      suffices hh : ∀ e l, removeDel e = .ok l → containsDels l = .ok false by
        intro es
        induction es with
        | nil => intro l hl; simp only [removeDels, Except.ok.injEq] at hl; subst hl; rfl
        | cons e es ih =>
          intro l hl
          simp only [removeDels] at hl
          cases h1 : removeDel e with
          | error er => simp [h1] at hl
          | ok r => cases h2 : removeDels es with
            | error er => simp [h1, h2] at hl
            | ok rs =>
              simp only [h1, h2, Except.ok.injEq] at hl
              subst hl
              exact app r rs (hh e r h1) (ih rs h2)
      intro e
      induction e using Effect.induct with
      | hadd c p ts => intro l hl; simp only [removeDel, Except.ok.injEq] at hl; subst hl; rfl
      | hdel c p ts => intro l hl; simp only [removeDel, Except.ok.injEq] at hl; subst hl; rfl
      | hlit c f => intro l hl; simp [removeDel] at hl
      | hassign c f ts r => intro l hl; simp [removeDel] at hl
      | huniv c vs es ih0 ih =>
        clear ih0
        intro l hl
        simp only [removeDel] at hl
        have key : ∀ es' , removeDels es = .ok es' → containsDels es' = .ok false := by
          clear hl
          induction es with
          | nil => intro l hl; simp only [removeDels, Except.ok.injEq] at hl; subst hl; rfl
          | cons e es ih2 =>
            intro l hl
            simp only [removeDels] at hl
            cases h1 : removeDel e with
            | error er => simp [h1] at hl
            | ok r => cases h2 : removeDels es with
              | error er => simp [h1, h2] at hl
              | ok rs =>
                simp only [h1, h2, Except.ok.injEq] at hl
                subst hl
                exact app r rs (ih e (by simp) r h1) (ih2 (fun e' he' => ih e' (by simp [he'])) rs h2)
        cases h1 : removeDels es with
        | error er => simp [h1] at hl
        | ok es' =>
          simp only [h1, Except.ok.injEq] at hl
          subst hl
          simp [containsDels, containsDel, key es' h1]
    exact this es l h
  · intro L dom b b' hb
    unfold progress at hb
    rw [delsFirst_noDels hn] at hb
    clear hn
    induction es generalizing l b with
    | nil =>
      simp only [removeDels, Except.ok.injEq] at h; subst h
      simp only [seqApply, Except.ok.injEq] at hb
      subst hb; exact Leq.refl ..
    | cons e es ih =>
      simp only [removeDels] at h
      cases h1 : removeDel e with
      | error er => simp [h1] at h
      | ok r => cases h2 : removeDels es with
        | error er => simp [h1, h2] at h
        | ok rs =>
          simp only [h1, h2, Except.ok.injEq] at h
          subst h
          rw [seqApply_append] at hb
          split at hb
          · simp at hb
          · rename_i m1 hm1
            exact (deleteFree_grows e r h1 b m1 hm1).trans (ih rs h2 m1 hb)

/-! ### C28 for STRIPS: the relaxed execution does not raise -/

mutual
/-- Positive formulas over atoms with constants. -/
def GroundPos : Formula → Prop
  | .top => True
  | .bot => True
  | .atom p ts => (∃ n, p = .user n) ∧ ∃ pt : List Const, ts = pt.map Const.toTerm
  | .comp _ .and fs => GroundPoss fs
  | .comp _ .or fs => GroundPoss fs
  | _ => False
def GroundPoss : List Formula → Prop
  | [] => True
  | f :: fs => GroundPos f ∧ GroundPoss fs
end

theorem uses_consts (x : Sym) (pt : List Const) : ¬ UsesTs x (pt.map Const.toTerm) := by
  induction pt with
  | nil => simp [UsesTs]
  | cons c pt ih => simpa [UsesTs, Const.toTerm, UsesT] using ih

theorem evTerms_consts (L : MLang) (m : MState) (σ) (mode : EvMode) (pt : List Const) :
    evTerms L m σ mode (pt.map Const.toTerm) = .ok pt := by
  induction pt with
  | nil => simp [evTerms]
  | cons c pt ih => simp [evTerms, Const.toTerm, evTerm]; simpa [Const.toTerm] using by rw [ih]

mutual
theorem groundPos_pos : ∀ f, GroundPos f → PosF f
  | .top, _ => trivial
  | .bot, _ => trivial
  | .atom _ ts, h => by
    obtain ⟨_, pt, rfl⟩ := h
    exact fun p => uses_consts _ pt
  | .comp _ .and fs, h => groundPoss_pos fs h
  | .comp _ .or fs, h => groundPoss_pos fs h
  | .comp _ .not fs, h => by simp [GroundPos] at h
  | .quant _ _ f, h => by simp [GroundPos] at h
theorem groundPoss_pos : ∀ fs, GroundPoss fs → PosFs fs
  | [], _ => trivial
  | f :: fs, h => ⟨groundPos_pos f h.1, groundPoss_pos fs h.2⟩
end

mutual
theorem groundPos_total (L : MLang) (m : MState) (σ) : ∀ f, GroundPos f → ∃ b, evFormula L m σ f = .ok b
  | .top, _ => ⟨_, rfl⟩
  | .bot, _ => ⟨_, rfl⟩
  | .atom _ ts, h => by
    obtain ⟨⟨n, rfl⟩, pt, rfl⟩ := h
    exact ⟨m.holds L n pt, by simp only [evFormula, evTerms_consts]⟩
  | .comp _ .and fs, h => by simpa [evFormula] using groundPoss_all L m σ fs h
  | .comp _ .or fs, h => by simpa [evFormula] using groundPoss_any L m σ fs h
  | .comp _ .not fs, h => by simp [GroundPos] at h
  | .quant _ _ f, h => by simp [GroundPos] at h
theorem groundPoss_all (L : MLang) (m : MState) (σ) : ∀ fs, GroundPoss fs → ∃ b, evAll L m σ fs = .ok b
  | [], _ => ⟨_, rfl⟩
  | f :: fs, h => by
    obtain ⟨b, hb⟩ := groundPos_total L m σ f h.1
    simp only [evAll, hb]
    cases b with
    | true => exact groundPoss_all L m σ fs h.2
    | false => exact ⟨_, rfl⟩
theorem groundPoss_any (L : MLang) (m : MState) (σ) : ∀ fs, GroundPoss fs → ∃ b, evAny L m σ fs = .ok b
  | [], _ => ⟨_, rfl⟩
  | f :: fs, h => by
    obtain ⟨b, hb⟩ := groundPos_total L m σ f h.1
    simp only [evAny, hb]
    cases b with
    | false => exact groundPoss_any L m σ fs h.2
    | true => exact ⟨_, rfl⟩
end

/-- A ground STRIPS operator: a positive ground precondition and unconditional ground adds and deletes. -/
def StripsOp (o : Operator) : Prop := GroundPos o.pre ∧ ∀ e ∈ o.effs, ∃ p pt, e = addEff p pt ∨ e = delEff p pt

/-- The operator without its delete effects. -/
def relaxOp (o : Operator) : Operator := ⟨o.pre, o.effs.filter (fun e => !e.isDel)⟩

theorem removeDels_strips : ∀ (es : List Effect), (∀ e ∈ es, ∃ p pt, e = addEff p pt ∨ e = delEff p pt) →
    removeDels es = .ok (es.filter (fun e => !e.isDel))
  | [], _ => rfl
  | e :: es, h => by
    have ih := removeDels_strips es (fun e' he' => h e' (by simp [he']))
    obtain ⟨p, pt, rfl | rfl⟩ := h e (by simp)
    · rw [List.filter_cons_of_pos (by simp [addEff, Effect.isDel])]
      simp [removeDels, removeDel, addEff, ih]
    · rw [List.filter_cons_of_neg (by simp [delEff, Effect.isDel])]
      simp [removeDels, removeDel, delEff, ih]

/-- C28 for ground STRIPS operators: every plan is a plan of the relaxation (`remove_delete_effects` returns the add
effects), in the strong sense that the relaxed execution does not raise, and the goal is reached. -/
theorem C28_strips (L : MLang) (dom : Domains) (hd : ConstDoms dom) (goal : Formula) (hg : GroundPos goal) :
    ∀ (ops : List Operator) (m m' r : MState), (∀ o ∈ ops, StripsOp o) → Leq L m r →
      execPlan L dom m ops = .ok (some m') → evFormula L m' noSigma goal = .ok true →
      (∀ o ∈ ops, removeDels o.effs = .ok (relaxOp o).effs) ∧
      ∃ r', execPlan L dom r (ops.map relaxOp) = .ok (some r') ∧ Leq L m' r' ∧
        evFormula L r' noSigma goal = .ok true := by
  intro ops
  induction ops with
  | nil =>
    intro m m' r _ hle h hgoal
    simp only [execPlan, Except.ok.injEq, Option.some.injEq] at h
    subst h
    obtain ⟨b, hb⟩ := groundPos_total L r noSigma goal hg
    have := pos_mono hle goal (groundPos_pos _ hg) hgoal
    refine ⟨by simp, r, rfl, hle, ?_⟩
    cases b with
    | true => exact hb
    | false => exact absurd hb this
  | cons o ops ih =>
    intro m m' r hs hle h hgoal
    obtain ⟨hpre, heff⟩ := hs o (by simp)
    simp only [execPlan, isApplicable] at h
    cases hc : evFormula L m noSigma o.pre with
    | error e => simp [hc] at h
    | ok v =>
    cases v with
    | false => simp [hc] at h
    | true =>
    simp only [hc] at h
    cases hm : progress L dom m o.effs with
    | error e => simp [hm] at h
    | ok m1 =>
    simp only [hm] at h
    have hrd := removeDels_strips o.effs heff
    have hcr : evFormula L r noSigma o.pre = .ok true := by
      obtain ⟨b, hb⟩ := groundPos_total L r noSigma o.pre hpre
      have := pos_mono hle o.pre (groundPos_pos _ hpre) hc
      cases b with
      | true => exact hb
      | false => exact absurd hb this
    have hsub : ∀ e ∈ (relaxOp o).effs, ∃ p pt, e = addEff p pt ∨ e = delEff p pt :=
      fun e he => heff e (List.mem_filter.1 he).1
    obtain ⟨r1, hr1⟩ := (C24_returns L dom r (relaxOp o).effs hsub).2 (fun p pt hmem =>
      (C24_returns L dom m o.effs heff).1 ⟨m1, hm⟩ p pt (List.mem_filter.1 hmem).1)
    have hposE : PosEs o.effs := by
      rw [posEs_iff]
      intro e he
      obtain ⟨p, pt, rfl | rfl⟩ := heff e he <;> simp [addEff, delEff, PosE, PosF]
    have hle1 := simul_progress hd o.effs _ hrd hposE m r m1 r1 hle hm hr1
    obtain ⟨h1, r', h2, h3⟩ := ih m1 m' r1 (fun o' ho' => hs o' (by simp [ho'])) hle1 h hgoal
    refine ⟨?_, r', ?_, h3⟩
    · intro o' ho'
      rcases List.mem_cons.1 ho' with rfl | ho'
      · exact hrd
      · exact h1 o' ho'
    · simp only [List.map_cons, execPlan, isApplicable]
      have : (relaxOp o).pre = o.pre := rfl
      rw [this, hcr]
      simp only [hr1]
      exact h2

/-- The restriction to positive conditions is needed: with a negated precondition the second step of the plan is not
applicable in the relaxation. -/
theorem C28_negative_refuted :
    let mv : Operator := ⟨neg (.atom (.user "q") [exB1.toTerm]), [addEff "q" [exB1], delEff "p" [exB1]]⟩
    let back : Operator := ⟨.top, [delEff "q" [exB1]]⟩
    (∃ m', execPlan exLang noDom MState.empty [mv, back, mv] = .ok (some m')) ∧
    execPlan exLang noDom MState.empty ([mv, back, mv].map relaxOp) = .ok none := ⟨⟨_, rfl⟩, rfl⟩

/-- Functional effects are refused, so no relaxation is ever computed that drops or keeps them. -/
theorem C28_functional (c : Formula) (f : String) (ts : List Term) (r : Term) (es : List Effect) :
    removeDels (.assign c f ts r :: es) = .error .runtime := rfl

/-! Non-vacuity -/
example : ∃ m', execPlan exLang noDom MState.empty
      [⟨.top, [addEff "q" [exB1]]⟩, ⟨.atom (.user "q") [exB1.toTerm], [delEff "q" [exB1], addEff "p" [exB1]]⟩] = .ok (some m') ∧
    evFormula exLang m' noSigma (.atom (.user "p") [exB1.toTerm]) = .ok true := ⟨_, rfl, by decide⟩
example : StripsOp ⟨.atom (.user "q") [exB1.toTerm], [delEff "q" [exB1], addEff "p" [exB1]]⟩ :=
  ⟨⟨⟨_, rfl⟩, [exB1], rfl⟩, fun e he => by
    rcases List.mem_cons.1 he with rfl | he
    · exact ⟨_, _, .inr rfl⟩
    · rw [List.mem_singleton.1 he]; exact ⟨_, _, .inl rfl⟩⟩
/-- A lifted action with a conditional universal effect that contains a delete. -/
def exRelax : Schema where
  params := [⟨"x", "block"⟩]
  pre := .atom (.user "q") [.var ⟨"x", "block"⟩]
  effs := [.add .top (.user "p") [.var ⟨"x", "block"⟩],
    .univ (.atom (.user "q") [.var ⟨"x", "block"⟩]) [⟨"y", "block"⟩]
      [.del (neg (.atom (.user "q") [.var ⟨"y", "block"⟩])) (.user "p") [.var ⟨"y", "block"⟩],
       .add (.atom (.user "p") [.var ⟨"y", "block"⟩]) (.user "q") [.var ⟨"y", "block"⟩]]]
example : ∃ a', relaxSchema exRelax = .ok a' ∧ PosSchema exRelax ∧
    ∃ ops ops' m' r', groundSteps [(exRelax, createSubst [.var ⟨"x", "block"⟩] [exB1.toTerm])] = .ok ops ∧
      groundSteps [(a', createSubst [.var ⟨"x", "block"⟩] [exB1.toTerm])] = .ok ops' ∧
      execPlan exLang twoDom exEffState ops = .ok (some m') ∧ execPlan exLang twoDom exEffState ops' = .ok (some r') ∧
      m'.holds exLang "p" [exB2] = false ∧ r'.holds exLang "p" [exB2] = true :=
  ⟨_, rfl, by simp [PosSchema, exRelax, PosF, PosEs, PosE, UsesTs, UsesT], _, _, _, _, rfl, rfl, rfl, rfl, by decide, by decide⟩

end Tarski

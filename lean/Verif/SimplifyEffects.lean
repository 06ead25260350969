import Verif.SimplifyNormal
/-! Simplified effects and actions behave as the original ones (C31). -/
namespace Tarski

mutual
/-- The arguments of the atoms of add and delete effects are variables or constants. -/
def FlatAtoms : Effect → Prop
  | .add _ _ ts => ∀ t ∈ ts, (∃ v, t = Term.var v) ∨ ∃ n s, t = Term.const n s
  | .del _ _ ts => ∀ t ∈ ts, (∃ v, t = Term.var v) ∨ ∃ n s, t = Term.const n s
  | .univ _ _ es => FlatAtomss es
  | .lit _ _ => True
  | .assign _ _ _ _ => True
def FlatAtomss : List Effect → Prop
  | [] => True
  | e :: es => FlatAtoms e ∧ FlatAtomss es
end

theorem flatAtomss_iff {es : List Effect} : FlatAtomss es ↔ ∀ e ∈ es, FlatAtoms e := by
  induction es with
  | nil => simp [FlatAtomss]
  | cons e es ih => simp [FlatAtomss, ih]

theorem subsE_add (ss : List Subst) (c p ts) : subsE ss (.add c p ts) = .add (subsF ss c) p (subsTs ss ts) := by
  induction ss generalizing c ts with
  | nil => rfl
  | cons s ss ih => simpa only [subsE, subsF, subsTs, List.foldl_cons, subE] using ih _ _

theorem subsE_del (ss : List Subst) (c p ts) : subsE ss (.del c p ts) = .del (subsF ss c) p (subsTs ss ts) := by
  induction ss generalizing c ts with
  | nil => rfl
  | cons s ss ih => simpa only [subsE, subsF, subsTs, List.foldl_cons, subE] using ih _ _

theorem subsE_assign (ss : List Subst) (c f ts r) :
    subsE ss (.assign c f ts r) = .assign (subsF ss c) f (subsTs ss ts) (subsT ss r) := by
  induction ss generalizing c ts r with
  | nil => rfl
  | cons s ss ih => simpa only [subsE, subsF, subsT, subsTs, List.foldl_cons, subE] using ih _ _ _

/-- The condition and the variables of an instance of a universal effect do not depend on its sub-effects. -/
theorem subsE_univ (ss : List Subst) (c vs) : ∃ c' vs', ∀ es, subsE ss (.univ c vs es) = .univ c' vs' (es.map (subsE ss)) := by
  induction ss generalizing c vs with
  | nil => exact ⟨c, vs, fun es => by
      have : (subsE [] : Effect → Effect) = id := by funext e; rfl
      rw [this, List.map_id]; rfl⟩
  | cons s ss ih =>
    obtain ⟨c', vs', h⟩ := ih (subF s (subF s c)) (vs.filter (fun v => (s.get? (.var v)).isNone))
    refine ⟨c', vs', fun es => ?_⟩
    have := h (es.map (subE s))
    have h2 : ∀ e, subsE (s :: ss) e = subsE ss (subE s e) := fun e => rfl
    rw [h2, subE, subEs_eq_map, this, List.map_map]
    rfl

theorem subsE_snoc (ss : List Subst) (s : Subst) (e : Effect) : subE s (subsE ss e) = subsE (ss ++ [s]) e := by
  simp [subsE]

theorem terms_flat {C : Simplifier} : ∀ {ts ts' : List Term}, (∀ t ∈ ts, (∃ v, t = Term.var v) ∨ ∃ n s, t = Term.const n s) →
    C.terms ts = .ok ts' → ts' = ts
  | [], ts', _, h => by simp only [Simplifier.terms, Except.ok.injEq] at h; exact h.symm
  | t :: ts, ts', hf, h => by
    have ht : C.term t = .ok t := by
      rcases hf t (by simp) with ⟨v, rfl⟩ | ⟨n, s, rfl⟩ <;> simp [Simplifier.term]
    simp only [Simplifier.terms, ht] at h
    cases hts : C.terms ts with
    | error e => simp [hts] at h
    | ok ts1 =>
      simp only [hts, Except.ok.injEq] at h
      rw [← h, terms_flat (fun t h => hf t (by simp [h])) hts]

/-- If all arguments of the instantiated left-hand side are constants, so were they before simplification. -/
theorem terms_lhs {C : Simplifier} {ss : List Subst} (hs : ∀ s ∈ ss, GoodS s) : ∀ {ts ts' : List Term},
    ((subsTs ss ts).map termArg).all Arg.isConst = true → C.terms ts = .ok ts' → ts' = ts
  | [], ts', _, h => by simp only [Simplifier.terms, Except.ok.injEq] at h; exact h.symm
  | t :: ts, ts', hc, h => by
    rw [subsTs_cons] at hc
    simp only [List.map_cons, List.all_cons, Bool.and_eq_true] at hc
    have ht : ∀ t', C.term t = .ok t' → t' = t := by
      intro t' ht
      cases t with
      | var v => simp only [Simplifier.term, Except.ok.injEq] at ht; exact ht.symm
      | const n s => simp only [Simplifier.term, Except.ok.injEq] at ht; exact ht.symm
      | app f l => rw [subsT_app hs] at hc; simp [termArg, Arg.isConst] at hc
      | ite c a b => simp [Simplifier.term] at ht
    simp only [Simplifier.terms] at h
    cases h1 : C.term t with
    | error e => simp [h1] at h
    | ok t1 =>
      cases hts : C.terms ts with
      | error e => simp [h1, hts] at h
      | ok ts1 =>
        simp only [h1, hts, Except.ok.injEq] at h
        rw [← h, ht t1 h1, terms_lhs hs hc.2 hts]

theorem applyEffect_add (L dom m c p ts) : applyEffect L dom m (.add c p ts) = match evFormula L m noSigma c with
    | .error er => .error er
    | .ok false => .ok m
    | .ok true => raising (m.add L p (ts.map termArg)) := by
  unfold applyEffect applyFuel; rfl

theorem applyEffect_del (L dom m c p ts) : applyEffect L dom m (.del c p ts) = match evFormula L m noSigma c with
    | .error er => .error er
    | .ok false => .ok m
    | .ok true => raising (m.discardP L p (ts.map termArg)) := by
  unfold applyEffect applyFuel; rfl

theorem applyEffect_assign (L dom m c f ts r) : applyEffect L dom m (.assign c f ts r) = match evFormula L m noSigma c with
    | .error er => .error er
    | .ok false => .ok m
    | .ok true => match evTerm L m noSigma .eval r with
        | .error er => .error er
        | .ok c => raising (m.set L f (builtinFunctionNames.contains f) (ts.map termArg) (.const c)) := by
  unfold applyEffect applyFuel; rfl

/-- What a simplified effect does, when the original one turns `m` into `m'`. -/
def EffectKept (L : MLang) (dom : Domains) (ss : List Subst) (m m' : MState) : Option Effect → Prop
  | none => m' = m
  | some e' => applyEffect L dom m (subsE ss e') = .ok m'

theorem boolToExpr_ev {L m ss b r} (h : SimpEv L m ss b r) : evFormula L m noSigma (subsF ss (boolToExpr r)) = .ok b := by
  cases r with
  | bool b0 =>
    simp only [SimpEv] at h; subst h
    cases b0 <;> simp [boolToExpr, subsF_top, subsF_bot, evFormula]
  | form f => exact h

/-- The two branches of lines 177-181 and 184-189: the condition has become false, or the rest is simplified. -/
theorem cond_cases {C : Simplifier} {m} (ha : C.Agrees m) {ss : List Subst} (hs : ∀ s ∈ ss, GoodS s) {c r}
    (h : C.formula c = .ok r) {b} (he : evFormula C.L m noSigma (subsF ss c) = .ok b) :
    evFormula C.L m noSigma (subsF ss (boolToExpr r)) = .ok b ∧ (boolToExpr r = .bot → b = false) := by
  have h1 := boolToExpr_ev (simpF_ev ha hs c r h b he)
  refine ⟨h1, fun hb => ?_⟩
  rw [hb, subsF_bot] at h1
  simpa [evFormula] using h1.symm

theorem atom_result {C : Simplifier} {p ts p' ts'} (h : C.formula (.atom p ts) = .ok (.form (.atom p' ts'))) :
    p' = p ∧ C.terms ts = .ok ts' := by
  simp only [Simplifier.formula] at h
  cases hts : C.terms ts with
  | error e => simp [hts] at h
  | ok ts1 =>
    simp only [hts] at h
    rcases finishA_evaluated h with ⟨h1, _⟩ | ⟨b, h1⟩
    · simp only [Simp.form.injEq, Formula.atom.injEq] at h1
      exact ⟨h1.1, by rw [h1.2]⟩
    · simp at h1

theorem app_result {C : Simplifier} {f ts f' ts'} (h : C.term (.app f ts) = .ok (.app f' ts')) :
    f' = f ∧ C.terms ts = .ok ts' := by
  simp only [Simplifier.term] at h
  cases hts : C.terms ts with
  | error e => simp [hts] at h
  | ok ts1 =>
    simp only [hts] at h
    rcases finishT_evaluated h with ⟨h1, _⟩ | ⟨b, h1⟩
    · simp only [Term.app.injEq] at h1
      exact ⟨h1.1, by rw [h1.2]⟩
    · simp [constTerm] at h1

theorem agrees_frame {C : Simplifier} {dom m m'} (e : Effect) (hw : ∀ x, C.isStatic x = true → ¬ e.Writes x)
    (ha : C.Agrees m) (h : applyEffect C.L dom m e = .ok m') : C.Agrees m' := by
  intro m0 hm x hx
  exact (apply_frame C.L dom x e (hw x hx) m m' h).symm.trans (ha m0 hm x hx)

theorem subsE_writes (ss : List Subst) (x : Sym) (e : Effect) : (subsE ss e).Writes x ↔ e.Writes x := by
  induction ss generalizing e with
  | nil => rfl
  | cons s ss ih =>
    have := ih (subE s e)
    rw [writes_subE] at this
    exact this

theorem effect_shape {α : Type} {c' : Formula} {x y : α} {o}
    (h : (if isBot c' = true then x else y) = o) : (c' = .bot ∧ x = o) ∨ (c' ≠ .bot ∧ y = o) := by
  cases c' <;> simp_all [isBot]

theorem effects_nil (C : Simplifier) : C.effects [] = .ok [] := by simp [Simplifier.effects]

theorem enumSubsts_good {dom : Domains} (hd : ConstDoms dom) {vs ss} (h : enumSubsts dom vs = .ok ss) :
    ∀ s ∈ ss, GoodS s := by
  intro s hs
  refine ⟨?_, enumSubsts_vals hd h s hs⟩
  simp only [enumSubsts] at h
  split at h
  · simp at h
  · simp only [Except.ok.injEq] at h
    subst h
    obtain ⟨vals, _, rfl⟩ := List.mem_map.1 hs
    intro kv hkv
    have := (List.of_mem_zip hkv).1
    obtain ⟨v, _, hv⟩ := List.mem_map.1 this
    exact ⟨v, hv.symm⟩

mutual
theorem simpE_apply {C : Simplifier} {dom : Domains} (hd : ConstDoms dom) :
    ∀ (e : Effect) (o), C.effect e = .ok o → FlatAtoms e → (∀ x, C.isStatic x = true → ¬ e.Writes x) →
      ∀ (ss : List Subst), (∀ s ∈ ss, GoodS s) → ∀ m m', C.Agrees m → applyEffect C.L dom m (subsE ss e) = .ok m' →
      EffectKept C.L dom ss m m' o
  | .lit c l, o, h, _, _, ss, hs, m, m', ha, he => by simp [Simplifier.effect] at h
  | .add c p ts, o, h, hf, _, ss, hs, m, m', ha, he => by
    simp only [Simplifier.effect] at h
    rw [subsE_add, applyEffect_add] at he
    cases hc : C.formula c with
    | error e => simp [hc] at h
    | ok r =>
      simp only [hc] at h
      cases hb : evFormula C.L m noSigma (subsF ss c) with
      | error e => simp [hb] at he
      | ok b =>
        obtain ⟨h1, h2⟩ := cond_cases ha hs hc hb
        simp only [hb] at he
        rcases effect_shape h with ⟨hbot, ho⟩ | ⟨_, ho⟩
        · simp only [Except.ok.injEq] at ho; subst ho
          rw [h2 hbot] at he
          simp only [Except.ok.injEq] at he
          exact he.symm
        · split at ho
          · simp at ho
          · rename_i p' ts' hat
            simp only [Except.ok.injEq] at ho; subst ho
            obtain ⟨rfl, hts⟩ := atom_result hat
            rw [terms_flat (by simpa only [FlatAtoms] using hf) hts]
            simp only [EffectKept, subsE_add, applyEffect_add, h1]
            exact he
          · simp at ho
  | .del c p ts, o, h, hf, _, ss, hs, m, m', ha, he => by
    simp only [Simplifier.effect] at h
    rw [subsE_del, applyEffect_del] at he
    cases hc : C.formula c with
    | error e => simp [hc] at h
    | ok r =>
      simp only [hc] at h
      cases hb : evFormula C.L m noSigma (subsF ss c) with
      | error e => simp [hb] at he
      | ok b =>
        obtain ⟨h1, h2⟩ := cond_cases ha hs hc hb
        simp only [hb] at he
        rcases effect_shape h with ⟨hbot, ho⟩ | ⟨_, ho⟩
        · simp only [Except.ok.injEq] at ho; subst ho
          rw [h2 hbot] at he
          simp only [Except.ok.injEq] at he
          exact he.symm
        · split at ho
          · simp at ho
          · rename_i p' ts' hat
            simp only [Except.ok.injEq] at ho; subst ho
            obtain ⟨rfl, hts⟩ := atom_result hat
            rw [terms_flat (by simpa only [FlatAtoms] using hf) hts]
            simp only [EffectKept, subsE_del, applyEffect_del, h1]
            exact he
          · simp at ho
  | .assign c f ts rhs, o, h, hf, _, ss, hs, m, m', ha, he => by
    simp only [Simplifier.effect] at h
    rw [subsE_assign, applyEffect_assign] at he
    cases hc : C.formula c with
    | error e => simp [hc] at h
    | ok r =>
      simp only [hc] at h
      cases hb : evFormula C.L m noSigma (subsF ss c) with
      | error e => simp [hb] at he
      | ok b =>
        obtain ⟨h1, h2⟩ := cond_cases ha hs hc hb
        simp only [hb] at he
        rcases effect_shape h with ⟨hbot, ho⟩ | ⟨_, ho⟩
        · simp only [Except.ok.injEq] at ho; subst ho
          rw [h2 hbot] at he
          simp only [Except.ok.injEq] at he
          exact he.symm
        · split at ho
          · simp at ho
          · rename_i f' ts' hat
            obtain ⟨rfl, hts⟩ := app_result hat
            split at ho
            · simp at ho
            · rename_i rhs' hrhs
              simp only [Except.ok.injEq] at ho; subst ho
              simp only [EffectKept, subsE_assign, applyEffect_assign, h1]
              cases b with
              | false => exact he
              | true =>
                simp only at he ⊢
                cases hv : evTerm C.L m noSigma .eval (subsT ss rhs) with
                | error e => simp [hv] at he
                | ok v =>
                  simp only [hv] at he
                  rw [simpT_ev ha hs rhs rhs' hrhs .eval v hv]
                  simp only
                  have hall : ((subsTs ss ts).map termArg).all Arg.isConst = true := by
                    by_contra hne
                    simp only [Bool.not_eq_true] at hne
                    simp only [MState.set, hne, if_true] at he
                    split at he <;> simp [raising] at he
                  rw [terms_lhs hs hall hts]
                  exact he
          · simp at ho
  | .univ c vs es, o, h, hf, hw, ss, hs, m, m', ha, he => by
    simp only [Simplifier.effect] at h
    cases hes : C.effects es with
    | error e => simp [hes] at h
    | ok es' =>
      simp only [hes, Except.ok.injEq] at h; subst h
      obtain ⟨c', vs', hu⟩ := subsE_univ ss c vs
      simp only [EffectKept]
      rw [hu, applyEffect_univ] at he ⊢
      cases hc : evFormula C.L m noSigma c' with
      | error e => simp [hc] at he
      | ok b =>
        cases b with
        | false => simpa [hc] using he
        | true =>
          simp only [hc] at he ⊢
          cases hen : enumSubsts dom vs' with
          | error e => simp [hen] at he
          | ok sss =>
            simp only [hen] at he ⊢
            have hgood := enumSubsts_good hd hen
            have hw' : ∀ x, C.isStatic x = true → ¬ WritesAny x es := fun x hx => by
              simpa only [Effect.Writes] using hw x hx
            have hf' : FlatAtomss es := by simpa only [FlatAtoms] using hf
            clear hen hu hw hf hc
            induction sss generalizing m with
            | nil => exact he
            | cons s sss ih =>
              simp only [seqApply] at he ⊢
              cases hs1 : seqApply (fun m e => applyEffect C.L dom m (subE s e)) m (es.map (subsE ss)) with
              | error e => simp [hs1] at he
              | ok m1 =>
                simp only [hs1] at he
                have hg : ∀ t ∈ ss ++ [s], GoodS t := by
                  intro t ht
                  rcases List.mem_append.1 ht with h | h
                  · exact hs t h
                  · exact hgood t (by simp_all)
                have hkey := simpEs_apply hd es es' hes hf' hw' (ss ++ [s]) hg m m1 ha (by
                  rw [seqApply_map] at hs1
                  simpa only [subsE_snoc] using hs1)
                have h2 : seqApply (fun m e => applyEffect C.L dom m (subE s e)) m (es'.map (subsE ss)) = .ok m1 := by
                  rw [seqApply_map]
                  simpa only [subsE_snoc] using hkey.1
                rw [h2]
                exact ih m1 hkey.2 he (fun t ht => hgood t (by simp [ht]))
theorem simpEs_apply {C : Simplifier} {dom : Domains} (hd : ConstDoms dom) :
    ∀ (es es' : List Effect), C.effects es = .ok es' → FlatAtomss es → (∀ x, C.isStatic x = true → ¬ WritesAny x es) →
      ∀ (ss : List Subst), (∀ s ∈ ss, GoodS s) → ∀ m m', C.Agrees m →
      seqApply (fun m e => applyEffect C.L dom m (subsE ss e)) m es = .ok m' →
      seqApply (fun m e => applyEffect C.L dom m (subsE ss e)) m es' = .ok m' ∧ C.Agrees m'
  | [], es', h, _, _, ss, hs, m, m', ha, he => by
    rw [effects_nil] at h
    simp only [Except.ok.injEq] at h; subst h
    refine ⟨he, ?_⟩
    simp only [seqApply, Except.ok.injEq] at he
    rw [← he]; exact ha
  | e :: es, es', h, hf, hw, ss, hs, m, m', ha, he => by
    simp only [FlatAtomss] at hf
    simp only [Simplifier.effects] at h
    cases h1 : C.effect e with
    | error er => simp [h1] at h
    | ok o =>
      cases h2 : C.effects es with
      | error er => simp [h1, h2] at h
      | ok es1 =>
        simp only [h1, h2, Except.ok.injEq] at h
        subst h
        simp only [seqApply] at he
        cases h3 : applyEffect C.L dom m (subsE ss e) with
        | error er => simp [h3] at he
        | ok m1 =>
          simp only [h3] at he
          have hw1 : ∀ x, C.isStatic x = true → ¬ e.Writes x := fun x hx hh => hw x hx (by simp [WritesAny, hh])
          have hk := simpE_apply hd e o h1 hf.1 hw1 ss hs m m1 ha h3
          have ha1 : C.Agrees m1 := agrees_frame (subsE ss e) (fun x hx => by rw [subsE_writes]; exact hw1 x hx) ha h3
          have hrest := simpEs_apply hd es es1 h2 hf.2 (fun x hx hh => hw x hx (by simp [WritesAny, hh])) ss hs m1 m' ha1 he
          cases o with
          | none =>
            simp only [EffectKept] at hk
            subst hk
            simpa using hrest
          | some e' =>
            simp only [EffectKept] at hk
            simp only [Option.toList_some, List.singleton_append, seqApply, hk]
            exact hrest
end

/-! ### Order of the effects -/

theorem effect_isDel {C : Simplifier} {e e' : Effect} (h : C.effect e = .ok (some e')) : e'.isDel = e.isDel := by
  cases e with
  | add c p ts =>
    simp only [Simplifier.effect] at h
    split at h
    · simp at h
    · rcases effect_shape h with ⟨_, ho⟩ | ⟨_, ho⟩
      · simp at ho
      · split at ho <;> simp at ho
        rw [← ho]; rfl
  | del c p ts =>
    simp only [Simplifier.effect] at h
    split at h
    · simp at h
    · rcases effect_shape h with ⟨_, ho⟩ | ⟨_, ho⟩
      · simp at ho
      · split at ho <;> simp at ho
        rw [← ho]; rfl
  | lit c l => simp [Simplifier.effect] at h
  | assign c f ts r =>
    simp only [Simplifier.effect] at h
    split at h
    · simp at h
    · rcases effect_shape h with ⟨_, ho⟩ | ⟨_, ho⟩
      · simp at ho
      · split at ho
        · simp at ho
        · split at ho <;> simp at ho
          rw [← ho]; rfl
        · simp at ho
  | univ c vs es =>
    simp only [Simplifier.effect] at h
    split at h <;> simp at h
    rw [← h]; rfl

theorem effects_filter {C : Simplifier} (P : Effect → Bool) (hP : ∀ e e', C.effect e = .ok (some e') → P e' = P e) :
    ∀ (es es' : List Effect), C.effects es = .ok es' → C.effects (es.filter P) = .ok (es'.filter P)
  | [], es', h => by simp only [effects_nil, Except.ok.injEq] at h; subst h; simp [effects_nil]
  | e :: es, es', h => by
    simp only [Simplifier.effects] at h
    cases h1 : C.effect e with
    | error er => simp [h1] at h
    | ok o =>
      cases h2 : C.effects es with
      | error er => simp [h1, h2] at h
      | ok es1 =>
        simp only [h1, h2, Except.ok.injEq] at h
        subst h
        have ih := effects_filter P hP es es1 h2
        cases hp : P e with
        | false =>
          rw [List.filter_cons_of_neg (by simp [hp]), ih]
          cases o with
          | none => simp
          | some e' => simp [hP e e' h1, hp]
        | true =>
          rw [List.filter_cons_of_pos hp]
          simp only [Simplifier.effects, h1, ih]
          cases o with
          | none => simp
          | some e' => simp [hP e e' h1, hp]

theorem effects_append {C : Simplifier} : ∀ (es fs es' fs' : List Effect), C.effects es = .ok es' → C.effects fs = .ok fs' →
    C.effects (es ++ fs) = .ok (es' ++ fs')
  | [], fs, es', fs', h1, h2 => by simp only [effects_nil, Except.ok.injEq] at h1; subst h1; exact h2
  | e :: es, fs, es', fs', h1, h2 => by
    simp only [Simplifier.effects] at h1
    cases he : C.effect e with
    | error er => simp [he] at h1
    | ok o =>
      cases hes : C.effects es with
      | error er => simp [he, hes] at h1
      | ok es1 =>
        simp only [he, hes, Except.ok.injEq] at h1
        subst h1
        simp [Simplifier.effects, he, effects_append es fs es1 fs' hes h2]

theorem effects_delsFirst {C : Simplifier} {es es' : List Effect} (h : C.effects es = .ok es') :
    C.effects (delsFirst es) = .ok (delsFirst es') := by
  unfold delsFirst
  exact effects_append _ _ _ _
    (effects_filter _ (fun e e' h => effect_isDel h) es es' h)
    (effects_filter _ (fun e e' h => by rw [effect_isDel h]) es es' h)

theorem delsFirst_map_subE (s : Subst) (es : List Effect) : delsFirst (es.map (subE s)) = (delsFirst es).map (subE s) := by
  have h : ∀ e, (subE s e).isDel = e.isDel := fun e => by cases e <;> rfl
  simp only [delsFirst, List.map_append, List.filter_map]
  congr 2 <;> (congr 1; ext e; simp [h])

end Tarski

import Verif.ReachTight
/-! The logic program derives everything the relaxed problem reaches. -/
namespace Tarski

theorem dropNegEs_mem {incl} {e' : Effect} : ∀ {es : List Effect}, e' ∈ dropNegEs incl es → ∃ e ∈ es, e' = dropNegE incl e
  | e1 :: es, h => by
    simp only [dropNegEs] at h
    rcases List.mem_cons.mp h with rfl | h
    · exact ⟨e1, by simp, rfl⟩
    · obtain ⟨e, he, h⟩ := dropNegEs_mem h
      exact ⟨e, by simp [he], h⟩

theorem lpEffect_relaxed {X V R P M ord} (H : DerCtx X V R P M ord) {incl pre st c p ts st' ps}
    (h : lpEffect X.dom ord incl pre st (.add c (.user p) ts) = .ok st') (hP : ∀ r ∈ st'.rules, r ∈ P)
    (hf : AddOK V ps c ts) (hn : incl = true → NegAtoms c) {σ θ} (hm : AsgMatch V σ θ) (hpre : ∀ l ∈ pre, LitTrue R M θ l)
    (ht : ∀ v ∈ ps, OfSort X.dom v.sort (σ v))
    (hs : Sat (stateInterp X.dom R (atomsOf M)) (dropNeg incl c) σ) :
    M (.atom p) (evalTs (stateInterp X.dom R (atomsOf M)) ts σ) := by
  simp only [lpEffect] at h
  cases h1 : lpAtom (.user p) ts with
  | error e => simp [h1] at h
  | ok hd =>
    cases h2 : lpCondition X.dom ord incl st c with
    | error e => simp [h1, h2] at h
    | ok r =>
      obtain ⟨b, st1⟩ := r
      simp only [h1, h2, Except.ok.injEq] at h
      subst h
      have hb := lpCondition_relaxed H h2 (fun r hr => hP r (List.mem_append_left _ hr)) hf.cond hn hm ht hs
      simp only [lpAtom] at h1
      cases h3 : lpTerms ts with
      | error e => simp [h3] at h1
      | ok xs =>
        simp only [h3, Except.ok.injEq] at h1
        subst h1
        have := H.model ⟨.pred (.atom p) xs, pre ++ b⟩ (hP _ (List.mem_append_right _ (by simp))) θ _ _ rfl (by
          intro l hl
          rcases List.mem_append.mp hl with hl | hl
          · exact hpre l hl
          · exact hb l hl)
        rwa [lpTerms_val H.scope (dom := X.dom) (R := R) (S := atomsOf M) hf.args h3 hm] at this

/-- What an effect, after expansion, adds, ignoring negations. -/
theorem expanded_relaxed {X V R P M ord} (H : DerCtx X V R P M ord) {incl pre e xs ps} (hx : expandUniversal X.dom e = .ok xs)
    (hl : ∀ x ∈ xs, ∃ st1 st2, lpEffect X.dom ord incl pre st1 x = .ok st2 ∧ ∀ r ∈ st2.rules, r ∈ P)
    (hf : EffOK V ps e) (htt : TightEff incl e) {σ θ} (hm : AsgMatch V σ θ) (hpre : ∀ l ∈ pre, LitTrue R M θ l)
    (ht : ∀ v ∈ ps, OfSort X.dom v.sort (σ v)) {p as}
    (hs : Causes (stateInterp X.dom R (atomsOf M)) true (dropNegE incl e) σ p as) : M (.atom p) as := by
  cases e with
  | add c p' ts =>
    simp only [dropNegE] at hs
    cases hs with
    | add _ p _ _ hb hs =>
      simp only [expandUniversal, Except.ok.injEq] at hx
      subst hx
      obtain ⟨st1, st2, h1, h2⟩ := hl _ (List.mem_singleton.mpr rfl)
      exact lpEffect_relaxed H h1 h2 hf htt.2 hm hpre ht hs
  | del c p' ts => simp only [dropNegE] at hs; cases hs with | del _ _ _ _ hb _ => exact absurd hb (by simp)
  | lit c l => simp only [dropNegE] at hs; cases hs
  | assign c f ts r => simp only [dropNegE] at hs; cases hs
  | univ c vs es =>
    simp only [dropNegE] at hs
    cases hs with
    | univ _ _ _ e' _ τ _ _ hc he h1 h2 hcs =>
      simp only [expandUniversal] at hx
      split at hx
      · cases hss : enumSubsts X.dom vs with
        | error e => simp [hss] at hx
        | ok ss =>
          simp only [hss, Except.ok.injEq] at hx
          subst hx
          obtain ⟨e0, he0, rfl⟩ := dropNegEs_mem he
          obtain ⟨s, hs, k1, k2, k3, k4⟩ := enumSubsts_complete H.consts H.good hf.1 hss h1 h2 R (atomsOf M)
          obtain ⟨st1, st2, g1, g2⟩ := hl (subE s e0) (List.mem_flatMap.mpr ⟨s, hs, List.mem_map.mpr ⟨e0, he0, rfl⟩⟩)
          cases e0 with
          | add c' p' ts =>
            simp only [dropNegE] at hcs
            cases hcs with
            | add _ p _ _ hb hsat =>
              have hadd := hf.2 c' _ ts he0
              have hfr : ∀ v, BoundF v c' → Fresh s v := by
                intro v hv
                apply fresh_const k2.consts
                intro kv hkv he
                exact hadd.2 v ((k3 v).mp ⟨kv, hkv, he⟩) hv
              have hsat' : Sat (stateInterp X.dom R (atomsOf M)) (dropNeg incl (subF s c')) σ := by
                rw [dropNeg_subF, subF_sem _ k1 (dropNeg incl c') (flatF_varBinders (dropNeg_flat hadd.1.cond.flat))
                  (fun v hv => hfr v (dropNeg_bound hv)), k4]
                exact hsat
              have := lpEffect_relaxed H g1 g2 (subst_addOK hadd.1 hadd.2 k1 k2 k3)
                (fun hi => negAtoms_subF ((htt c' _ ts he0).2 hi)) hm hpre ht hsat'
              rwa [subTs_sem _ k1 ts (flatTs_varBinders hadd.1.args)
                (fun v hv => absurd hv (flatTs_not_bound hadd.1.args)), k4] at this
          | del c' p' ts => simp only [dropNegE] at hcs; cases hcs with | del _ _ _ _ hb _ => exact absurd hb (by simp)
          | lit c l => simp only [dropNegE] at hcs; cases hcs
          | assign c f ts r => simp only [dropNegE] at hcs; cases hcs
          | univ c' vs' es' => simp [subE, lpEffect] at g1
      · simp at hx

theorem lpAct_relaxed {X V R P M ord} (H : DerCtx X V R P M ord) {ground incl st n} {a : Schema} {st'}
    (h : lpAct X ord ground incl st n a = .ok st') (hP : ∀ r ∈ st'.rules, r ∈ P) (hp : ∀ v ∈ a.params, V v)
    (hc : CondOK V a.params a.pre) (he : ∀ e ∈ a.effs, EffOK V a.params e) (tc : TightCond incl (fun _ => False) a.pre)
    (te : ∀ e ∈ a.effs, TightEff incl e) {σ}
    (ha : ApplicableIn (stateInterp X.dom R (atomsOf M)) ⟨a.params, dropNeg incl a.pre, a.effs⟩ σ) :
    (ground = true → M (.action n) (a.params.map σ)) ∧
    ∀ e ∈ a.effs, ∀ p as, Causes (stateInterp X.dom R (atomsOf M)) true (dropNegE incl e) σ p as → M (.atom p) as := by
  obtain ⟨θ, hm⟩ := exists_match H.scope σ
  cases ground with
  | true =>
    simp only [lpAct, if_true] at h
    obtain ⟨xs, tys, b, st1, h1, h2, h3, h4⟩ := lpAction_parts h
    obtain ⟨x1, x2⟩ := lpExpanded_mem h4
    have hP1 : ∀ r ∈ (st1.add ⟨.pred (.action n) xs, tys ++ b⟩).rules, r ∈ P := fun r hr => hP r (x1.sub r hr)
    have hb := lpCondition_relaxed H h3 (fun r hr => hP1 r (List.mem_append_left _ hr)) hc tc.2 hm ha.1 ha.2
    have hact : M (.action n) (xs.map (lpInst θ)) := by
      refine H.model ⟨.pred (.action n) xs, tys ++ b⟩ (hP1 _ (List.mem_append_right _ (by simp))) θ _ _ rfl ?_
      intro l hl
      rcases List.mem_append.mp hl with hl | hl
      · exact params_types H hp h2 hm ha.1 l hl
      · exact hb l hl
    refine ⟨fun _ => by rwa [lpTerms_vars_val H.scope hp h1 hm] at hact, ?_⟩
    intro e hee p as hcs
    obtain ⟨ys, hy, hl⟩ := x2 e hee
    refine expanded_relaxed H hy (incl := incl) ?_ (he e hee) (te e hee) hm (pre := [.pred (.action n) xs])
      (by simpa [LitTrue] using hact) ha.1 hcs
    intro x hx
    obtain ⟨s1, s2, _, j2, j3⟩ := hl x hx
    exact ⟨s1, s2, j2, fun r hr => hP r (j3.sub r hr)⟩
  | false =>
    simp only [lpAct, Bool.false_eq_true, if_false] at h
    refine ⟨by simp, ?_⟩
    obtain ⟨tys, b, st1, h2, h3, h4⟩ := lpActionVO_parts h
    obtain ⟨x1, x2⟩ := lpEffects_mem h4
    have hb := lpCondition_relaxed H h3 (fun r hr => hP r (x1.sub r hr)) hc tc.2 hm ha.1 ha.2
    intro e hee p as hcs
    obtain ⟨s1, s2, _, j2, j3⟩ := x2 e hee
    have hex : expandUniversal X.dom e = .ok [e] := by
      cases e with
      | univ c vs es => simp [lpEffect] at j2
      | add c p ts => rfl
      | del c p ts => rfl
      | lit c l => rfl
      | assign c f ts r => rfl
    refine expanded_relaxed H hex (pre := tys ++ b) (incl := incl) (fun x hx => ?_) (he e hee) (te e hee) hm ?_ ha.1 hcs
    · simp only [List.mem_singleton] at hx
      subst hx
      exact ⟨s1, s2, j2, fun r hr => hP r (j3.sub r hr)⟩
    · intro l hl
      rcases List.mem_append.mp hl with hl | hl
      · exact params_types H hp h2 hm ha.1 l hl
      · exact hb l hl

/-- In a model of the program the atoms are closed under the relaxed problem. -/
theorem createLP_relaxed {X : LPInput} (W : LPWellFormed X) {incl} (T : LPTight X incl) {ord : List Var → List Var}
    (hord : ∀ l v, v ∈ ord l ↔ v ∈ l) {ground st R M} (h : createLP X ord ground incl = .ok st) (hM : IsModel R st.rules M) :
    RelaxClosed X R incl (atomsOf M) ∧
    (ground = true → ∀ n a σ, (n, a) ∈ X.actions →
      ApplicableIn (stateInterp X.dom R (atomsOf M)) ⟨a.params, dropNeg incl a.pre, a.effs⟩ σ → M (.action n) (a.params.map σ)) ∧
    ∀ σ, Sat (stateInterp X.dom R (atomsOf M)) (dropNeg incl X.goal) σ → M .goal [] := by
  have hctx := fun V hV => derCtx_of W hord h hM (V := V) hV
  have hinit := (createLP_complete W hord h hM).1
  obtain ⟨st1, st2, st3, st4, b, st5, h1, h2, h3, h4, h5, rfl⟩ := createLP_parts h
  have hg : LPExt st4 (st5.add ⟨.pred .goal [], b⟩) := (lpCondition_ext h5).lpExt.add_right (by simp)
  obtain ⟨a1, a2⟩ := lpActions_mem (fun _ _ _ _ h => lpAct_ext h) h4
  have hact : ∀ n a σ, (n, a) ∈ X.actions →
      ApplicableIn (stateInterp X.dom R (atomsOf M)) ⟨a.params, dropNeg incl a.pre, a.effs⟩ σ →
      (ground = true → M (.action n) (a.params.map σ)) ∧
      ∀ e ∈ a.effs, ∀ p as, Causes (stateInterp X.dom R (atomsOf M)) true (dropNegE incl e) σ p as → M (.atom p) as := by
    intro n a σ hm ha
    obtain ⟨V, hV, hp, hc, he⟩ := W.actions n a hm
    obtain ⟨tc, te⟩ := T.actions n a hm
    rcases a2 n a hm with hf | ⟨_, s1, s2, _, g, g'⟩
    · exact absurd hf (allInhabited_of fun v hv => ⟨σ v, ha.1 v hv⟩)
    · exact lpAct_relaxed (hctx V hV) g (fun r hr => hg.sub r (g'.sub r hr)) hp hc he tc te ha
  refine ⟨⟨fun p ts hm => hinit p ts hm _ _, fun n a σ hm ha => (hact n a σ hm ha).2⟩,
    fun hgr n a σ hm ha => (hact n a σ hm ha).1 hgr, ?_⟩
  intro σ hs
  obtain ⟨V, hV, hc⟩ := W.goal
  obtain ⟨θ, hm⟩ := exists_match hV σ
  have hb := lpCondition_relaxed (hctx V hV) h5 (fun r hr => List.mem_append_left _ hr) hc T.goal.2 hm (by simp) hs
  have := hM ⟨.pred .goal [], b⟩ (List.mem_append_right _ (by simp)) θ _ _ rfl hb
  simpa using this

end Tarski

import Verif.ReachComplete
/-! The program as a whole derives everything that can be reached. -/
namespace Tarski

/-- Rules were added, and the auxiliary symbols they define are new. -/
def LPExt (st st' : LPSt) : Prop :=
  st.count ≤ st'.count ∧ ∃ rs, st'.rules = st.rules ++ rs ∧
    ∀ r ∈ rs, ∀ k args, r.head = .pred (.aux k) args → st.count < k ∧ k ≤ st'.count

theorem LPExt.refl (st : LPSt) : LPExt st st := ⟨Nat.le_refl _, [], by simp, by simp⟩

theorem LPExt.trans {a b c : LPSt} (h1 : LPExt a b) (h2 : LPExt b c) : LPExt a c := by
  obtain ⟨l1, r1, e1, q1⟩ := h1
  obtain ⟨l2, r2, e2, q2⟩ := h2
  refine ⟨by omega, r1 ++ r2, by rw [e2, e1, List.append_assoc], ?_⟩
  intro r hr k args hk
  rcases List.mem_append.mp hr with hr | hr
  · have := q1 r hr k args hk; omega
  · have := q2 r hr k args hk; omega

theorem LPExt.sub {a b : LPSt} (h : LPExt a b) : ∀ r ∈ a.rules, r ∈ b.rules := by
  obtain ⟨_, rs, e, _⟩ := h
  intro r hr
  rw [e]; exact List.mem_append_left _ hr

theorem AuxExt.lpExt {a b : LPSt} (h : AuxExt a b) : LPExt a b := by
  obtain ⟨l, rs, e, q⟩ := h
  refine ⟨l, rs, e, ?_⟩
  intro r hr k args hk
  obtain ⟨k', args', h1, h2, h3⟩ := q r hr
  rw [hk] at h1
  cases h1
  exact ⟨h2, h3⟩

theorem LPExt.add_right {a b : LPSt} (h : LPExt a b) {r : LPRule} (hr : ∀ k args, r.head ≠ .pred (.aux k) args) :
    LPExt a (b.add r) :=
  h.trans ⟨Nat.le_refl _, [r], rfl, by
    intro r' hr' k args hk
    simp only [List.mem_singleton] at hr'
    subst hr'
    exact absurd hk (hr k args)⟩

theorem lpCondition_ext {dom ord incl st f b st'} (h : lpCondition dom ord incl st f = .ok (b, st')) : AuxExt st st' := by
  simp only [lpCondition] at h
  cases h1 : removeQuantifiers dom .forall f with
  | error e => simp [h1] at h
  | ok g => simp only [h1] at h; exact lpFormula_ext g h

theorem lpAtom_notAux {p ts l} (h : lpAtom p ts = .ok l) (k args) : l ≠ .pred (.aux k) args := by
  simp only [lpAtom] at h
  cases h1 : lpTerms ts with
  | error e => simp [h1] at h
  | ok xs =>
    rw [h1] at h
    cases p with
    | user n => simp only [Except.ok.injEq] at h; subst h; simp
    | cmp c =>
      match xs, h with
      | [a, b], h => simp only [Except.ok.injEq] at h; subst h; simp
      | [], h => simp at h
      | [_], h => simp at h
      | _ :: _ :: _ :: _, h => simp at h

theorem lpEffect_ext {dom ord incl pre st e st'} (h : lpEffect dom ord incl pre st e = .ok st') : LPExt st st' := by
  cases e with
  | add c p ts =>
    simp only [lpEffect] at h
    cases h1 : lpAtom p ts with
    | error e => simp [h1] at h
    | ok hd =>
      cases h2 : lpCondition dom ord incl st c with
      | error e => simp [h1, h2] at h
      | ok r =>
        obtain ⟨b, st1⟩ := r
        simp only [h1, h2, Except.ok.injEq] at h
        subst h
        exact (lpCondition_ext h2).lpExt.add_right (lpAtom_notAux h1)
  | del c p ts => simp only [lpEffect, Except.ok.injEq] at h; subst h; exact .refl _
  | assign c f ts r => simp [lpEffect] at h
  | lit c l => simp [lpEffect] at h
  | univ c vs es => simp [lpEffect] at h

/-- Each effect of the list is compiled, in some state of the compilation. -/
theorem lpEffects_mem {dom ord incl pre} : ∀ {es : List Effect} {st st'}, lpEffects dom ord incl pre st es = .ok st' →
    LPExt st st' ∧ ∀ e ∈ es, ∃ st1 st2, LPExt st st1 ∧ lpEffect dom ord incl pre st1 e = .ok st2 ∧ LPExt st2 st'
  | [], st, st', h => by simp only [lpEffects, Except.ok.injEq] at h; subst h; exact ⟨.refl _, by simp⟩
  | e :: es, st, st', h => by
    simp only [lpEffects] at h
    cases h1 : lpEffect dom ord incl pre st e with
    | error e => simp [h1] at h
    | ok st1 =>
      simp only [h1] at h
      obtain ⟨i1, i2⟩ := lpEffects_mem h
      have hx := lpEffect_ext h1
      refine ⟨hx.trans i1, ?_⟩
      intro e' he'
      rcases List.mem_cons.mp he' with rfl | he'
      · exact ⟨st, st1, .refl _, h1, i1⟩
      · obtain ⟨s1, s2, j1, j2, j3⟩ := i2 e' he'
        exact ⟨s1, s2, hx.trans j1, j2, j3⟩

theorem lpExpanded_mem {dom ord incl pre} : ∀ {es : List Effect} {st st'}, lpExpanded dom ord incl pre st es = .ok st' →
    LPExt st st' ∧ ∀ e ∈ es, ∃ xs, expandUniversal dom e = .ok xs ∧ ∀ x ∈ xs, ∃ st1 st2, LPExt st st1 ∧
      lpEffect dom ord incl pre st1 x = .ok st2 ∧ LPExt st2 st'
  | [], st, st', h => by simp only [lpExpanded, Except.ok.injEq] at h; subst h; exact ⟨.refl _, by simp⟩
  | e :: es, st, st', h => by
    simp only [lpExpanded] at h
    cases h0 : expandUniversal dom e with
    | error e => simp [h0] at h
    | ok xs =>
      cases h1 : lpEffects dom ord incl pre st xs with
      | error e => simp [h0, h1] at h
      | ok st1 =>
        simp only [h0, h1] at h
        obtain ⟨i1, i2⟩ := lpExpanded_mem h
        obtain ⟨k1, k2⟩ := lpEffects_mem h1
        refine ⟨k1.trans i1, ?_⟩
        intro e' he'
        rcases List.mem_cons.mp he' with rfl | he'
        · refine ⟨xs, h0, fun x hx => ?_⟩
          obtain ⟨s1, s2, j1, j2, j3⟩ := k2 x hx
          exact ⟨s1, s2, j1, j2, j3.trans i1⟩
        · obtain ⟨ys, hy, h'⟩ := i2 e' he'
          refine ⟨ys, hy, fun x hx => ?_⟩
          obtain ⟨s1, s2, j1, j2, j3⟩ := h' x hx
          exact ⟨s1, s2, k1.trans j1, j2, j3⟩

/-! ### Conditions and effects -/

/-- What is needed of the setting in order to derive the consequences of one action. -/
structure DerCtx (X : LPInput) (V : Var → Prop) (R : CmpRel) (P : List LPRule) (M : LPSym → List String → Prop)
    (ord : List Var → List Var) : Prop where
  scope : VarScope X V
  model : IsModel R P M
  types : TypesIn X.dom V M
  ord : ∀ l v, v ∈ ord l ↔ v ∈ l
  consts : ConstDoms X.dom
  good : GoodDom V X.dom

theorem lpCondition_complete {X V R P M ord} (H : DerCtx X V R P M ord) {incl st f b st' ps}
    (h : lpCondition X.dom ord incl st f = .ok (b, st')) (hP : ∀ r ∈ st'.rules, r ∈ P) (hf : CondOK V ps f) {σ θ}
    (hm : AsgMatch V σ θ) (ht : ∀ v ∈ ps, OfSort X.dom v.sort (σ v)) {S : PState} (hS : ∀ p as, S p as → M (.atom p) as)
    (hs : Sat (stateInterp X.dom R S) f σ) : ∀ l ∈ b, LitTrue R M θ l := by
  simp only [lpCondition] at h
  cases h1 : removeQuantifiers X.dom .forall f with
  | error e => simp [h1] at h
  | ok g =>
    simp only [h1] at h
    obtain ⟨q1, q2, q3, _⟩ := qe_flat .forall H.consts H.good f g h1 hf.flat hf.rebind
    have hg : Sat (stateInterp X.dom R S) g σ :=
      (C09_qe_equiv_partial X.dom .forall f g (flatF_varBinders hf.flat) hf.rebind h1 String _ (stateInterp_domOK H.consts R S) σ).mpr hs
    exact lpFormula_complete H.scope H.model H.types H.ord g h hP q1 q2 σ θ hm (fun v hv => ht v (hf.free v (q3 v hv)))
      (dropNeg_sat_mono hS g q1 σ hg)

theorem lpEffect_complete {X V R P M ord} (H : DerCtx X V R P M ord) {incl pre st c p ts st' ps}
    (h : lpEffect X.dom ord incl pre st (.add c (.user p) ts) = .ok st') (hP : ∀ r ∈ st'.rules, r ∈ P)
    (hf : AddOK V ps c ts) {σ θ} (hm : AsgMatch V σ θ) (hpre : ∀ l ∈ pre, LitTrue R M θ l)
    (ht : ∀ v ∈ ps, OfSort X.dom v.sort (σ v)) {S : PState}
    (hS : ∀ p as, S p as → M (.atom p) as) (hs : Sat (stateInterp X.dom R S) c σ) :
    M (.atom p) (evalTs (stateInterp X.dom R S) ts σ) := by
  simp only [lpEffect] at h
  cases h1 : lpAtom (.user p) ts with
  | error e => simp [h1] at h
  | ok hd =>
    cases h2 : lpCondition X.dom ord incl st c with
    | error e => simp [h1, h2] at h
    | ok r =>
      obtain ⟨b, st1⟩ := r
      simp only [h1, h2, Except.ok.injEq] at h
      subst h
      have hb := lpCondition_complete H h2 (fun r hr => hP r (List.mem_append_left _ hr)) hf.cond hm ht hS hs
      simp only [lpAtom] at h1
      cases h3 : lpTerms ts with
      | error e => simp [h3] at h1
      | ok xs =>
        simp only [h3, Except.ok.injEq] at h1
        subst h1
        have := H.model ⟨.pred (.atom p) xs, pre ++ b⟩ (hP _ (List.mem_append_right _ (by simp))) θ _ _ rfl (by
          intro l hl
          rcases List.mem_append.mp hl with hl | hl
          · exact hpre l hl
          · exact hb l hl)
        rwa [lpTerms_val H.scope (dom := X.dom) (R := R) (S := S) hf.args h3 hm] at this

/-- Every choice of objects for the variables of a universal effect is among the substitutions. -/
theorem enumSubsts_complete {V : Var → Prop} {dom : Domains} (hc : ConstDoms dom) (hd : GoodDom V dom) {vs : List Var} {ss}
    (hV : ∀ v ∈ vs, V v) (h : enumSubsts dom vs = .ok ss) {τ σ : Asg String} (h1 : ∀ v, v ∉ vs → τ v = σ v)
    (h2 : ∀ v ∈ vs, OfSort dom v.sort (τ v)) (R : CmpRel) (S : PState) :
    ∃ s ∈ ss, KeysVar s ∧ GoodVals s ∧ (∀ v, (∃ kv ∈ s, kv.1 = Term.var v) ↔ v ∈ vs) ∧
      updAsg (stateInterp dom R S) s σ = τ := by
  simp only [enumSubsts] at h
  cases hds : domainsOf dom vs with
  | error e => simp [hds] at h
  | ok ds =>
    simp only [hds, Except.ok.injEq] at h
    subst h
    have key : ∃ values ∈ cart ds, List.Forall₂ (fun (v : Var) c => ∃ n so, c = Term.const n so ∧ nameText n = τ v ∧
        isAspVar (nameText n) = false) vs values := by
      clear h1
      induction vs generalizing ds with
      | nil =>
        simp only [domainsOf, Except.ok.injEq] at hds
        subst hds
        exact ⟨[], by simp [cart], .nil⟩
      | cons v vs ih =>
        simp only [domainsOf] at hds
        cases e1 : dom v.sort with
        | error e => simp [e1] at hds
        | ok d =>
          cases e2 : domainsOf dom vs with
          | error e => simp [e1, e2] at hds
          | ok ds' =>
            simp only [e1, e2, Except.ok.injEq] at hds
            subst hds
            obtain ⟨values, hv, hf⟩ := ih (fun v h => hV v (by simp [h])) (fun v h => h2 v (by simp [h])) ds' e2
            obtain ⟨cs, n, so, g1, g2, g3⟩ := h2 v (by simp)
            rw [e1] at g1
            cases g1
            refine ⟨Term.const n so :: values, ?_, .cons ⟨n, so, rfl, g3, hd v (hV v (by simp)) _ e1 n so g2⟩ hf⟩
            simp only [cart, List.mem_flatMap, List.mem_map]
            exact ⟨_, g2, values, hv, rfl⟩
    obtain ⟨values, hv, hf⟩ := key
    have hz : ∀ kv ∈ (vs.map Term.var).zip values, ∃ v ∈ vs, kv.1 = Term.var v ∧ ∃ n so, kv.2 = Term.const n so ∧ nameText n = τ v ∧
        isAspVar (nameText n) = false := by
      clear h1 h2 hV hds hv
      induction hf with
      | nil => simp
      | cons g _ ih =>
        intro kv hkv
        simp only [List.map_cons, List.zip_cons_cons, List.mem_cons] at hkv
        rcases hkv with rfl | hkv
        · exact ⟨_, by simp, rfl, g⟩
        · obtain ⟨w, hw, h'⟩ := ih kv hkv
          exact ⟨w, by simp [hw], h'⟩
    have hlen : values.length = (vs.map Term.var).length := by simp [hf.length_eq]
    have hk : ∀ v, (∃ kv ∈ (vs.map Term.var).zip values, kv.1 = Term.var v) ↔ v ∈ vs := by
      intro v
      constructor
      · rintro ⟨kv, hkv, he⟩
        obtain ⟨w, hw, hw', _⟩ := hz kv hkv
        rw [he] at hw'
        cases hw'
        exact hw
      · intro hv
        exact zip_key_mem hlen (List.mem_map.mpr ⟨v, hv, rfl⟩)
    refine ⟨createSubst (vs.map Term.var) values, List.mem_map.mpr ⟨values, hv, rfl⟩, ?_, ?_, hk, ?_⟩
    · intro kv hkv
      obtain ⟨v, _, h, _⟩ := hz kv hkv
      exact ⟨v, h⟩
    · intro kv hkv
      obtain ⟨v, _, h, n, so, a, b, c⟩ := hz kv hkv
      exact ⟨n, so, a, c⟩
    · funext v
      simp only [updAsg, Subst.visit]
      cases hg : (createSubst (vs.map Term.var) values).get? (.var v) with
      | none =>
        have hg := get?_eq_none.mp hg
        have : v ∉ vs := by
          intro hv
          obtain ⟨kv, a, b⟩ := (hk v).mpr hv
          exact hg kv a b
        simp [evalT, h1 v this]
      | some u =>
        obtain ⟨w, hw, h, n, so, a, b, c⟩ := hz _ (get?_eq_some hg)
        cases h
        simp only at a
        subst a
        simpa [evalT, stateInterp] using b

theorem subst_addOK {V : Var → Prop} {ps vs : List Var} {c : Formula} {ts : List Term} (h : AddOK V (ps ++ vs) c ts)
    (hb : ∀ v ∈ vs, ¬ BoundF v c) {s : Subst} (hk : KeysVar s) (hg : GoodVals s)
    (hks : ∀ v, (∃ kv ∈ s, kv.1 = Term.var v) ↔ v ∈ vs) : AddOK V ps (subF s c) (subTs s ts) := by
  have hfr : ∀ v, BoundF v c → Fresh s v := by
    intro v hv
    apply fresh_const hg.consts
    intro kv hkv he
    exact hb v ((hks v).mp ⟨kv, hkv, he⟩) hv
  have hvb := flatF_varBinders h.cond.flat
  refine ⟨⟨subF_flat hk hg c h.cond.flat hfr, subF_noRebind hk hg.consts c hvb hfr h.cond.rebind, ?_⟩,
    subTs_flat hk hg h.args, ?_⟩
  · intro v hv
    rcases freeF_subF hk v c hvb hfr hv with ⟨a, b⟩ | ⟨kv, a, b⟩
    · rcases List.mem_append.mp (h.cond.free v a) with g | g
      · exact g
      · obtain ⟨kv, e1, e2⟩ := (hks v).mpr g
        exact absurd e2 (b kv e1)
    · obtain ⟨n, so, e⟩ := hg.consts kv a
      rw [e] at b
      simp [FreeT] at b
  · intro v hv
    rw [var_mem_subTs hg.consts] at hv
    rcases List.mem_append.mp (h.free v hv.1) with g | g
    · exact g
    · obtain ⟨kv, e1, e2⟩ := (hks v).mpr g
      exact absurd e2 (hv.2 kv e1)

/-- What an effect, after expansion, adds. -/
theorem expanded_complete {X V R P M ord} (H : DerCtx X V R P M ord) {incl pre e xs ps} (hx : expandUniversal X.dom e = .ok xs)
    (hl : ∀ x ∈ xs, ∃ st1 st2, lpEffect X.dom ord incl pre st1 x = .ok st2 ∧ ∀ r ∈ st2.rules, r ∈ P)
    (hf : EffOK V ps e) {σ θ} (hm : AsgMatch V σ θ) (hpre : ∀ l ∈ pre, LitTrue R M θ l)
    (ht : ∀ v ∈ ps, OfSort X.dom v.sort (σ v)) {S : PState}
    (hS : ∀ p as, S p as → M (.atom p) as) {p as} (hs : Causes (stateInterp X.dom R S) true e σ p as) : M (.atom p) as := by
  cases hs with
  | add c p ts σ hb hs =>
    simp only [expandUniversal, Except.ok.injEq] at hx
    subst hx
    obtain ⟨st1, st2, h1, h2⟩ := hl _ (List.mem_singleton.mpr rfl)
    exact lpEffect_complete H h1 h2 hf hm hpre ht hS hs
  | del c p ts σ hb hs => exact absurd hb (by simp)
  | univ c vs es e' σ τ p as hc he h1 h2 hcs =>
    simp only [expandUniversal] at hx
    split at hx
    · cases hss : enumSubsts X.dom vs with
      | error e => simp [hss] at hx
      | ok ss =>
        simp only [hss, Except.ok.injEq] at hx
        subst hx
        obtain ⟨s, hs, k1, k2, k3, k4⟩ := enumSubsts_complete H.consts H.good hf.1 hss h1 h2 R S
        obtain ⟨st1, st2, g1, g2⟩ := hl (subE s e') (List.mem_flatMap.mpr ⟨s, hs, List.mem_map.mpr ⟨e', he, rfl⟩⟩)
        cases hcs with
        | add c' p ts _ hb hsat =>
          have hadd := hf.2 c' _ ts he
          have hfr : ∀ v, BoundF v c' → Fresh s v := by
            intro v hv
            apply fresh_const k2.consts
            intro kv hkv he
            exact hadd.2 v ((k3 v).mp ⟨kv, hkv, he⟩) hv
          have hsat' : Sat (stateInterp X.dom R S) (subF s c') σ := by
            rw [subF_sem _ k1 c' (flatF_varBinders hadd.1.cond.flat) hfr, k4]
            exact hsat
          have := lpEffect_complete H g1 g2 (subst_addOK hadd.1 hadd.2 k1 k2 k3) hm hpre ht hS hsat'
          rwa [subTs_sem _ k1 ts (flatTs_varBinders hadd.1.args)
            (fun v hv => absurd hv (flatTs_not_bound hadd.1.args)), k4] at this
        | del c' p ts _ hb hsat => exact absurd hb (by simp)
        | univ c' vs' es' e'' _ τ' p as hc' he' h1' h2' hcs' => simp [subE, lpEffect] at g1
    · simp at hx

/-! ### Actions -/

theorem lpAction_parts {dom ord incl st n a st'} (h : lpAction dom ord incl st n a = .ok st') :
    ∃ xs tys b st1, lpTerms (a.params.map .var) = .ok xs ∧ lpTypes (a.params.map .var) = .ok tys ∧
      lpCondition dom ord incl st a.pre = .ok (b, st1) ∧
      lpExpanded dom ord incl [.pred (.action n) xs] (st1.add ⟨.pred (.action n) xs, tys ++ b⟩) a.effs = .ok st' := by
  simp only [lpAction] at h
  cases h1 : lpTerms (a.params.map .var) with
  | error e => simp [h1] at h
  | ok xs =>
    cases h2 : lpTypes (a.params.map .var) with
    | error e => simp [h1, h2] at h
    | ok tys =>
      cases h3 : lpCondition dom ord incl st a.pre with
      | error e => simp [h1, h2, h3] at h
      | ok r =>
        obtain ⟨b, st1⟩ := r
        simp only [h1, h2, h3] at h
        exact ⟨xs, tys, b, st1, rfl, rfl, rfl, h⟩

theorem lpActionVO_parts {dom ord incl st a st'} (h : lpActionVO dom ord incl st a = .ok st') :
    ∃ tys b st1, lpTypes (a.params.map .var) = .ok tys ∧ lpCondition dom ord incl st a.pre = .ok (b, st1) ∧
      lpEffects dom ord incl (tys ++ b) st1 a.effs = .ok st' := by
  simp only [lpActionVO] at h
  cases h2 : lpTypes (a.params.map .var) with
  | error e => simp [h2] at h
  | ok tys =>
    cases h3 : lpCondition dom ord incl st a.pre with
    | error e => simp [h2, h3] at h
    | ok r =>
      obtain ⟨b, st1⟩ := r
      simp only [h2, h3] at h
      exact ⟨tys, b, st1, rfl, rfl, h⟩

theorem lpAction_ext {dom ord incl st n a st'} (h : lpAction dom ord incl st n a = .ok st') : LPExt st st' := by
  obtain ⟨xs, tys, b, st1, _, _, h3, h4⟩ := lpAction_parts h
  exact ((lpCondition_ext h3).lpExt.add_right (by simp)).trans (lpExpanded_mem h4).1

theorem lpActionVO_ext {dom ord incl st a st'} (h : lpActionVO dom ord incl st a = .ok st') : LPExt st st' := by
  obtain ⟨tys, b, st1, _, h3, h4⟩ := lpActionVO_parts h
  exact (lpCondition_ext h3).lpExt.trans (lpEffects_mem h4).1

theorem params_flat {V : Var → Prop} {ps : List Var} (hp : ∀ v ∈ ps, V v) : ∀ t ∈ ps.map Term.var, ∃ v, t = Term.var v ∧ V v := by
  intro t ht
  obtain ⟨v, hv, rfl⟩ := List.mem_map.mp ht
  exact ⟨v, rfl, hp v hv⟩

theorem params_types {X : LPInput} {V : Var → Prop} {R : CmpRel} {P : List LPRule} {M : LPSym → List String → Prop}
    {ord : List Var → List Var} (H : DerCtx X V R P M ord) {ps : List Var} {tys} (hp : ∀ v ∈ ps, V v)
    (h : lpTypes (ps.map .var) = .ok tys) {σ θ} (hm : AsgMatch V σ θ) (ht : ∀ v ∈ ps, OfSort X.dom v.sort (σ v)) :
    ∀ l ∈ tys, LitTrue R M θ l := by
  refine (lpTypes_vars H.scope (R := R) (M := M) hm (params_flat hp) h).mpr ?_
  intro v hv
  obtain ⟨w, hw, he⟩ := List.mem_map.mp hv
  cases he
  exact H.types v (hp v hw) _ (ht v hw)

theorem lpAction_complete {X V R P M ord} (H : DerCtx X V R P M ord) {incl st n} {a : Schema} {st'}
    (h : lpAction X.dom ord incl st n a = .ok st') (hP : ∀ r ∈ st'.rules, r ∈ P) (hp : ∀ v ∈ a.params, V v)
    (hc : CondOK V a.params a.pre) (he : ∀ e ∈ a.effs, EffOK V a.params e) {σ} {S : PState}
    (hS : ∀ p as, S p as → M (.atom p) as) (ha : ApplicableIn (stateInterp X.dom R S) a σ) :
    M (.action n) (a.params.map σ) ∧
    ∀ e ∈ a.effs, ∀ p as, Causes (stateInterp X.dom R S) true e σ p as → M (.atom p) as := by
  obtain ⟨xs, tys, b, st1, h1, h2, h3, h4⟩ := lpAction_parts h
  obtain ⟨θ, hm⟩ := exists_match H.scope σ
  obtain ⟨x1, x2⟩ := lpExpanded_mem h4
  have hP1 : ∀ r ∈ (st1.add ⟨.pred (.action n) xs, tys ++ b⟩).rules, r ∈ P := fun r hr => hP r (x1.sub r hr)
  have hb := lpCondition_complete H h3 (fun r hr => hP1 r (List.mem_append_left _ hr)) hc hm ha.1 hS ha.2
  have hact : M (.action n) (xs.map (lpInst θ)) := by
    refine H.model ⟨.pred (.action n) xs, tys ++ b⟩ (hP1 _ (List.mem_append_right _ (by simp))) θ _ _ rfl ?_
    intro l hl
    rcases List.mem_append.mp hl with hl | hl
    · exact params_types H hp h2 hm ha.1 l hl
    · exact hb l hl
  refine ⟨by rwa [lpTerms_vars_val H.scope hp h1 hm] at hact, ?_⟩
  intro e hee p as hcs
  obtain ⟨ys, hy, hl⟩ := x2 e hee
  refine expanded_complete H hy (incl := incl) ?_ (he e hee) hm (pre := [.pred (.action n) xs]) (by simpa [LitTrue] using hact) ha.1 hS hcs
  intro x hx
  obtain ⟨s1, s2, _, j2, j3⟩ := hl x hx
  exact ⟨s1, s2, j2, fun r hr => hP r (j3.sub r hr)⟩

theorem lpActionVO_complete {X V R P M ord} (H : DerCtx X V R P M ord) {incl st} {a : Schema} {st'}
    (h : lpActionVO X.dom ord incl st a = .ok st') (hP : ∀ r ∈ st'.rules, r ∈ P) (hp : ∀ v ∈ a.params, V v)
    (hc : CondOK V a.params a.pre) (he : ∀ e ∈ a.effs, EffOK V a.params e) {σ} {S : PState}
    (hS : ∀ p as, S p as → M (.atom p) as) (ha : ApplicableIn (stateInterp X.dom R S) a σ) :
    ∀ e ∈ a.effs, ∀ p as, Causes (stateInterp X.dom R S) true e σ p as → M (.atom p) as := by
  obtain ⟨tys, b, st1, h2, h3, h4⟩ := lpActionVO_parts h
  obtain ⟨θ, hm⟩ := exists_match H.scope σ
  obtain ⟨x1, x2⟩ := lpEffects_mem h4
  have hb := lpCondition_complete H h3 (fun r hr => hP r (x1.sub r hr)) hc hm ha.1 hS ha.2
  intro e hee p as hcs
  obtain ⟨s1, s2, _, j2, j3⟩ := x2 e hee
  have hex : expandUniversal X.dom e = .ok [e] := by
    cases e with
    | univ c vs es => simp [lpEffect] at j2
    | add c p ts => rfl
    | del c p ts => rfl
    | lit c l => rfl
    | assign c f ts r => rfl
  refine expanded_complete H hex (pre := tys ++ b) (incl := incl) (fun x hx => ?_) (he e hee) hm ?_ ha.1 hS hcs
  · simp only [List.mem_singleton] at hx
    subst hx
    exact ⟨s1, s2, j2, fun r hr => hP r (j3.sub r hr)⟩
  · intro l hl
    rcases List.mem_append.mp hl with hl | hl
    · exact params_types H hp h2 hm ha.1 l hl
    · exact hb l hl

/-! ### The whole program -/

theorem lpConsts_mem : ∀ {cs : List (Name × String)} {st st'}, lpConsts st cs = .ok st' → LPExt st st' ∧
    ∀ n s, (n, s) ∈ cs → ∃ l, lpType (.const n s) = .ok l ∧ (⟨l, []⟩ : LPRule) ∈ st'.rules
  | [], st, st', h => by simp only [lpConsts, Except.ok.injEq] at h; subst h; exact ⟨.refl _, by simp⟩
  | (n, s) :: cs, st, st', h => by
    simp only [lpConsts] at h
    cases h1 : lpType (.const n s) with
    | error e => simp [h1] at h
    | ok l =>
      simp only [h1] at h
      obtain ⟨i1, i2⟩ := lpConsts_mem h
      have hl : ∀ k args, l ≠ .pred (.aux k) args := by
        intro k args he
        cases n with
        | str t =>
          simp only [lpType] at h1
          cases h2 : uncapitalize t with
          | error e => simp [h2] at h1
          | ok x => simp only [h2, Except.ok.injEq] at h1; subst h1; simp at he
        | int i => simp [lpType] at h1
        | pyNone => simp [lpType] at h1
      refine ⟨((LPExt.refl st).add_right (r := ⟨l, []⟩) hl).trans i1, ?_⟩
      intro n' s' hm
      rcases List.mem_cons.mp hm with he | hm
      · cases he
        exact ⟨l, h1, i1.sub _ (List.mem_append_right _ (by simp))⟩
      · exact i2 n' s' hm

theorem lpSorts_mem {X : LPInput} : ∀ {ss : List String} {st st'}, lpSorts X st ss = .ok st' → LPExt st st' ∧
    ∀ s ∈ ss, X.interval s = false → ∀ p, X.parent s = some p → ∀ c cs, X.dom s = .ok (c :: cs) →
      (⟨.pred (.type p) ["X"], [.pred (.type s) ["X"]]⟩ : LPRule) ∈ st'.rules
  | [], st, st', h => by simp only [lpSorts, Except.ok.injEq] at h; subst h; exact ⟨.refl _, by simp⟩
  | s :: ss, st, st', h => by
    simp only [lpSorts] at h
    cases hi : X.interval s with
    | true =>
      simp only [hi, if_true] at h
      obtain ⟨i1, i2⟩ := lpSorts_mem h
      refine ⟨i1, fun s' hs' h1 => ?_⟩
      rcases List.mem_cons.mp hs' with rfl | hs'
      · rw [hi] at h1; cases h1
      · exact i2 s' hs' h1
    | false =>
      simp only [hi, Bool.false_eq_true, if_false] at h
      cases hp : X.parent s with
      | none =>
        simp only [hp] at h
        obtain ⟨i1, i2⟩ := lpSorts_mem h
        refine ⟨i1, fun s' hs' h1 p h2 => ?_⟩
        rcases List.mem_cons.mp hs' with rfl | hs'
        · rw [hp] at h2; cases h2
        · exact i2 s' hs' h1 p h2
      | some p =>
        simp only [hp] at h
        cases hd : X.dom s with
        | error e => simp [hd] at h
        | ok cs =>
          cases cs with
          | nil =>
            simp only [hd] at h
            obtain ⟨i1, i2⟩ := lpSorts_mem h
            refine ⟨i1, fun s' hs' h1 p h2 c cs h3 => ?_⟩
            rcases List.mem_cons.mp hs' with rfl | hs'
            · rw [hd] at h3; cases h3
            · exact i2 s' hs' h1 p h2 c cs h3
          | cons c cs =>
            simp only [hd] at h
            obtain ⟨i1, i2⟩ := lpSorts_mem h
            refine ⟨((LPExt.refl st).add_right (r := ⟨.pred (.type p) ["X"], [.pred (.type s) ["X"]]⟩) (by simp)).trans i1, ?_⟩
            intro s' hs' h1 p' h2 c' cs' h3
            rcases List.mem_cons.mp hs' with rfl | hs'
            · rw [hp] at h2
              cases h2
              exact i1.sub _ (List.mem_append_right _ (by simp))
            · exact i2 s' hs' h1 p' h2 c' cs' h3

theorem lpInitAtoms_mem : ∀ {as : List (String × List Term)} {st st'}, lpInitAtoms st as = .ok st' → LPExt st st' ∧
    ∀ p ts, (p, ts) ∈ as → ∃ l, lpAtom (.user p) ts = .ok l ∧ (⟨l, []⟩ : LPRule) ∈ st'.rules
  | [], st, st', h => by simp only [lpInitAtoms, Except.ok.injEq] at h; subst h; exact ⟨.refl _, by simp⟩
  | (p, ts) :: as, st, st', h => by
    simp only [lpInitAtoms] at h
    cases h1 : lpAtom (.user p) ts with
    | error e => simp [h1] at h
    | ok l =>
      simp only [h1] at h
      obtain ⟨i1, i2⟩ := lpInitAtoms_mem h
      refine ⟨((LPExt.refl st).add_right (r := ⟨l, []⟩) (lpAtom_notAux h1)).trans i1, ?_⟩
      intro p' ts' hm
      rcases List.mem_cons.mp hm with he | hm
      · cases he
        exact ⟨l, h1, i1.sub _ (List.mem_append_right _ (by simp))⟩
      · exact i2 p' ts' hm

theorem lpActions_mem {dom act} (hact : ∀ st n a st', act st n a = .ok st' → LPExt st st') :
    ∀ {as : List (String × Schema)} {st st'}, lpActions dom act st as = .ok st' → LPExt st st' ∧
    ∀ n a, (n, a) ∈ as → allInhabited dom a.params = .ok false ∨
      (allInhabited dom a.params = .ok true ∧ ∃ st1 st2, LPExt st st1 ∧ act st1 n a = .ok st2 ∧ LPExt st2 st')
  | [], st, st', h => by simp only [lpActions, Except.ok.injEq] at h; subst h; exact ⟨.refl _, by simp⟩
  | (n, a) :: as, st, st', h => by
    simp only [lpActions] at h
    cases h1 : allInhabited dom a.params with
    | error e => simp [h1] at h
    | ok b =>
      cases b with
      | false =>
        simp only [h1] at h
        obtain ⟨i1, i2⟩ := lpActions_mem hact h
        refine ⟨i1, ?_⟩
        intro n' a' hm
        rcases List.mem_cons.mp hm with he | hm
        · cases he; exact .inl h1
        · exact i2 n' a' hm
      | true =>
        simp only [h1] at h
        cases h2 : act st n a with
        | error e => simp [h2] at h
        | ok st1 =>
          simp only [h2] at h
          obtain ⟨i1, i2⟩ := lpActions_mem hact h
          have hx := hact _ _ _ _ h2
          refine ⟨hx.trans i1, ?_⟩
          intro n' a' hm
          rcases List.mem_cons.mp hm with he | hm
          · cases he; exact .inr ⟨h1, st, st1, .refl _, h2, i1⟩
          · rcases i2 n' a' hm with h | ⟨g1, s1, s2, g2, g3, g4⟩
            · exact .inl h
            · exact .inr ⟨g1, s1, s2, hx.trans g2, g3, g4⟩

theorem allInhabited_of {dom : Domains} : ∀ {vs : List Var}, (∀ v ∈ vs, ∃ d, OfSort dom v.sort d) →
    allInhabited dom vs ≠ .ok false
  | [], _ => by simp [allInhabited]
  | v :: vs, h => by
    obtain ⟨d, cs, n, so, h1, h2, _⟩ := h v (by simp)
    have ih := allInhabited_of (dom := dom) (vs := vs) fun v hv => h v (by simp [hv])
    cases cs with
    | nil => simp at h2
    | cons c cs => simpa [allInhabited, h1] using ih

/-- The act of the compiler that is used. -/
def lpAct (X : LPInput) (ord : List Var → List Var) (ground incl : Bool) (st : LPSt) (n : String) (a : Schema) :=
  if ground then lpAction X.dom ord incl st n a else lpActionVO X.dom ord incl st a

theorem lpAct_ext {X ord ground incl st n a st'} (h : lpAct X ord ground incl st n a = .ok st') : LPExt st st' := by
  unfold lpAct at h
  split at h
  · exact lpAction_ext h
  · exact lpActionVO_ext h

theorem createLP_parts {X ord ground incl st} (h : createLP X ord ground incl = .ok st) :
    ∃ st1 st2 st3 st4 b st5, lpConsts ⟨0, []⟩ X.consts = .ok st1 ∧ lpSorts X st1 X.sorts = .ok st2 ∧
      lpInitAtoms st2 X.initAtoms = .ok st3 ∧ lpActions X.dom (lpAct X ord ground incl) st3 X.actions = .ok st4 ∧
      lpCondition X.dom ord incl st4 X.goal = .ok (b, st5) ∧ st = st5.add ⟨.pred .goal [], b⟩ := by
  simp only [createLP] at h
  cases h1 : lpConsts ⟨0, []⟩ X.consts with
  | error e => simp [h1] at h
  | ok st1 =>
    cases h2 : lpSorts X st1 X.sorts with
    | error e => simp [h1, h2] at h
    | ok st2 =>
      cases h3 : lpInitAtoms st2 X.initAtoms with
      | error e => simp [h1, h2, h3] at h
      | ok st3 =>
        simp only [h1, h2, h3] at h
        split at h
        · simp at h
        · change (match lpActions X.dom (lpAct X ord ground incl) st3 X.actions with
            | .error e => .error e
            | .ok st4 => lpGoal X ord incl st4) = Except.ok st at h
          cases h4 : lpActions X.dom (lpAct X ord ground incl) st3 X.actions with
          | error e => simp [h4] at h
          | ok st4 =>
            simp only [h4, lpGoal] at h
            cases h5 : lpCondition X.dom ord incl st4 X.goal with
            | error e => simp [h5] at h
            | ok r =>
              obtain ⟨b, st5⟩ := r
              simp only [h5, Except.ok.injEq] at h
              exact ⟨st1, st2, st3, st4, b, st5, rfl, h2, h3, h4, h5, h.symm⟩

theorem isAspVar_X : isAspVar "X" = true := by decide

/-- Constants are derived for all sorts above their own. -/
theorem type_model {X : LPInput} (W : LPWellFormed X) {st1 st2 : LPSt} {R P M} (h1 : lpConsts ⟨0, []⟩ X.consts = .ok st1)
    (h2 : lpSorts X st1 X.sorts = .ok st2) (hM : IsModel R P M) (hP : ∀ r ∈ st2.rules, r ∈ P) {n s} (hu : UnderSort X n s) :
    M (.type s) [nameText n] := by
  obtain ⟨c1, c2⟩ := lpConsts_mem h1
  obtain ⟨s1, s2⟩ := lpSorts_mem h2
  induction hu with
  | base s hm =>
    obtain ⟨l, hl, hr⟩ := c2 n s hm
    obtain ⟨t, rfl, ht, ha⟩ := W.consts n s hm
    simp only [lpType, ht, Except.ok.injEq] at hl
    subst hl
    have := hM _ (hP _ (s1.sub _ hr)) (fun _ => "") _ _ rfl (by simp)
    simpa [lpInst, ha, nameText] using this
  | step s p hu hs hi hp ih =>
    obtain ⟨cs, hcs, hiff⟩ := W.doms s hs hi
    obtain ⟨so, hso⟩ := (hiff n).mpr hu
    cases cs with
    | nil => simp at hso
    | cons c cs =>
      have := hM _ (hP _ (s2 s hs hi p hp c cs hcs)) (fun _ => nameText n) _ _ rfl
        (by simpa [LitTrue, lpInst, isAspVar_X] using ih)
      simpa [lpInst, isAspVar_X] using this

theorem underSort_declared {X : LPInput} {n s} (hu : UnderSort X n s) : ∃ s, (n, s) ∈ X.consts := by
  induction hu with
  | base s h => exact ⟨s, h⟩
  | step s p _ _ _ _ ih => exact ih

theorem goodDom_of {X : LPInput} (W : LPWellFormed X) {V : Var → Prop} (hV : VarScope X V) : GoodDom V X.dom := by
  intro v hv cs hcs n so hn
  obtain ⟨hs, hi⟩ := hV.sort v hv
  obtain ⟨cs', hcs', hiff⟩ := W.doms _ hs hi
  rw [hcs] at hcs'
  cases hcs'
  obtain ⟨s, hm⟩ := underSort_declared ((hiff n).mp ⟨so, hn⟩)
  obtain ⟨t, rfl, _, ha⟩ := W.consts n s hm
  exact ha

theorem derCtx_of {X : LPInput} (W : LPWellFormed X) {ord : List Var → List Var} (hord : ∀ l v, v ∈ ord l ↔ v ∈ l)
    {ground incl st R M} (h : createLP X ord ground incl = .ok st) (hM : IsModel R st.rules M) {V : Var → Prop}
    (hV : VarScope X V) : DerCtx X V R st.rules M ord := by
  obtain ⟨st1, st2, st3, st4, b, st5, h1, h2, h3, h4, h5, rfl⟩ := createLP_parts h
  refine ⟨hV, hM, ?_, hord, W.constDoms, goodDom_of W hV⟩
  have hx : LPExt st2 (st5.add ⟨.pred .goal [], b⟩) :=
    (lpInitAtoms_mem h3).1.trans ((lpActions_mem (fun _ _ _ _ h => lpAct_ext h) h4).1.trans
      ((lpCondition_ext h5).lpExt.add_right (by simp)))
  rintro v hv d ⟨cs, n, so, e1, e2, rfl⟩
  obtain ⟨hs, hi⟩ := hV.sort v hv
  obtain ⟨cs', hcs', hiff⟩ := W.doms _ hs hi
  rw [e1] at hcs'
  cases hcs'
  exact type_model W h1 h2 hM (fun r hr => hx.sub r hr) ((hiff n).mp ⟨so, e2⟩)

/-- The conditions of `createLP` in terms of models: initial atoms, actions, goal. -/
theorem createLP_complete {X : LPInput} (W : LPWellFormed X) {ord : List Var → List Var} (hord : ∀ l v, v ∈ ord l ↔ v ∈ l)
    {ground incl st R M} (h : createLP X ord ground incl = .ok st) (hM : IsModel R st.rules M) :
    (∀ p ts, (p, ts) ∈ X.initAtoms → ∀ S σ, M (.atom p) (evalTs (stateInterp X.dom R S) ts σ)) ∧
    (∀ S : PState, (∀ p as, S p as → M (.atom p) as) →
      (∀ n a σ, (n, a) ∈ X.actions → ApplicableIn (stateInterp X.dom R S) a σ →
        (ground = true → M (.action n) (a.params.map σ)) ∧
        ∀ e ∈ a.effs, ∀ p as, Causes (stateInterp X.dom R S) true e σ p as → M (.atom p) as) ∧
      ∀ σ, Sat (stateInterp X.dom R S) X.goal σ → M .goal []) := by
  have hctx := fun V hV => derCtx_of W hord h hM (V := V) hV
  obtain ⟨st1, st2, st3, st4, b, st5, h1, h2, h3, h4, h5, rfl⟩ := createLP_parts h
  have hg : LPExt st4 (st5.add ⟨.pred .goal [], b⟩) := (lpCondition_ext h5).lpExt.add_right (by simp)
  obtain ⟨a1, a2⟩ := lpActions_mem (fun _ _ _ _ h => lpAct_ext h) h4
  refine ⟨?_, ?_⟩
  · intro p ts hm S σ
    obtain ⟨l, hl, hr⟩ := (lpInitAtoms_mem h3).2 p ts hm
    have hr := hg.sub _ (a1.sub _ hr)
    have hconst := W.init p ts hm
    have htv : ∃ xs, lpTerms ts = .ok xs ∧ xs.map (lpInst fun _ => "") = evalTs (stateInterp X.dom R S) ts σ := by
      clear hl hr hm
      induction ts with
      | nil => exact ⟨[], rfl, by simp [evalTs]⟩
      | cons t ts ih =>
        obtain ⟨n, so, rfl, ha⟩ := hconst t (by simp)
        obtain ⟨xs, e1, e2⟩ := ih fun t ht => hconst t (by simp [ht])
        exact ⟨nameText n :: xs, by simp [lpTerms, lpTerm, e1], by
          simp only [List.map_cons, e2, evalTs, evalT]
          simp [lpInst, ha, stateInterp]⟩
    obtain ⟨xs, e1, e2⟩ := htv
    simp only [lpAtom, e1, Except.ok.injEq] at hl
    subst hl
    have := hM _ hr (fun _ => "") _ _ rfl (by simp)
    rwa [e2] at this
  · intro S hS
    refine ⟨?_, ?_⟩
    · intro n a σ hm ha
      obtain ⟨V, hV, hp, hc, he⟩ := W.actions n a hm
      rcases a2 n a hm with hf | ⟨_, s1, s2, _, g, g'⟩
      · exact absurd hf (allInhabited_of fun v hv => ⟨σ v, ha.1 v hv⟩)
      · have hP : ∀ r ∈ s2.rules, r ∈ (st5.add ⟨.pred .goal [], b⟩).rules := fun r hr => hg.sub r (g'.sub r hr)
        unfold lpAct at g
        split at g
        · have := lpAction_complete (hctx V hV) g hP hp hc he hS ha
          exact ⟨fun _ => this.1, this.2⟩
        · rename_i hgr
          exact ⟨fun hg => absurd hg hgr, lpActionVO_complete (hctx V hV) g hP hp hc he hS ha⟩
    · intro σ hs
      obtain ⟨V, hV, hc⟩ := W.goal
      obtain ⟨θ, hm⟩ := exists_match hV σ
      have hb := lpCondition_complete (hctx V hV) h5 (fun r hr => List.mem_append_left _ hr) hc hm (by simp) hS hs
      have := hM ⟨.pred .goal [], b⟩ (List.mem_append_right _ (by simp)) θ _ _ rfl hb
      simpa using this

end Tarski

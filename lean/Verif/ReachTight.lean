import Verif.ReachExact
import Mathlib.Data.List.Nodup
/-! The logic program derives nothing beyond the relaxed problem. -/
namespace Tarski

/-- Every auxiliary atom that is true is so because of a rule of the program. -/
def AuxSup (R : CmpRel) (P : List LPRule) (M : LPSym → List String → Prop) : Prop :=
  ∀ k as, M (.aux k) as → ∃ r ∈ P, ∃ (θ : String → String) (args : List String), r.head = .pred (.aux k) args ∧
    args.map (lpInst θ) = as ∧ ∀ l ∈ r.body, LitTrue R M θ l

/-- Auxiliary symbols defined so far have been counted. -/
def AuxLe (st : LPSt) : Prop := ∀ r ∈ st.rules, ∀ k args, r.head = .pred (.aux k) args → k ≤ st.count

/-- The rules for the auxiliary symbols from `lo` on have all been added. -/
def Own (P : List LPRule) (lo : Nat) (st : LPSt) : Prop :=
  ∀ r ∈ P, ∀ k args, r.head = .pred (.aux k) args → lo < k → k ≤ st.count → r ∈ st.rules

/-- Sorts are not overestimated. -/
def TypesOnly (dom : Domains) (V : Var → Prop) (M : LPSym → List String → Prop) : Prop :=
  ∀ v, V v → ∀ d, M (.type v.sort) [d] → OfSort dom v.sort d

theorem AuxExt.auxLe {a b : LPSt} (h : AuxExt a b) (ha : AuxLe a) : AuxLe b := by
  obtain ⟨l, rs, e, q⟩ := h
  intro r hr k args hk
  rw [e] at hr
  rcases List.mem_append.mp hr with hr | hr
  · have := ha r hr k args hk; omega
  · obtain ⟨k', args', h1, h2, h3⟩ := q r hr
    rw [hk] at h1
    cases h1
    exact h3

theorem Own.before {P lo} {a b : LPSt} (h : Own P lo b) (hx : AuxExt a b) : Own P lo a := by
  obtain ⟨l, rs, e, q⟩ := hx
  intro r hr k args hk h1 h2
  have := h r hr k args hk h1 (by omega)
  rw [e] at this
  rcases List.mem_append.mp this with g | g
  · exact g
  · obtain ⟨k', args', g1, g2, g3⟩ := q r g
    rw [hk] at g1
    cases g1
    omega

theorem Own.mono {P lo lo' st} (h : Own P lo st) (hl : lo ≤ lo') : Own P lo' st :=
  fun r hr k args hk h1 h2 => h r hr k args hk (by omega) h2

/-- The assignment read off a valuation. -/
def valAsg (θ : String → String) : Asg String := fun v => match makeVarName v.sym with | .ok x => θ x | .error _ => ""

theorem valAsg_match {X : LPInput} {V : Var → Prop} (hV : VarScope X V) (θ : String → String) : AsgMatch V (valAsg θ) θ :=
  match_of_val hV θ

/-- The rules for a new auxiliary symbol are those added last. -/
theorem own_last {P : List LPRule} {st st1 : LPSt} {rs : List LPRule} (hle : AuxLe st)
    (hx : AuxExt ⟨st.count + 1, st.rules⟩ st1) (ho : Own P st.count ⟨st1.count, st1.rules ++ rs⟩) {r args} (hr : r ∈ P)
    (hh : r.head = .pred (.aux (st.count + 1)) args) : r ∈ rs := by
  obtain ⟨l, rs', e, q⟩ := hx
  simp only at l e q
  have := ho r hr _ _ hh (by omega) (by simpa using l)
  simp only [e] at this
  rcases List.mem_append.mp this with g | g
  · rcases List.mem_append.mp g with g | g
    · have := hle r g _ _ hh; omega
    · obtain ⟨k', args', h1, h2, h3⟩ := q r g
      rw [hh] at h1
      cases h1
      omega
  · exact g

theorem own_inner {P : List LPRule} {st st1 : LPSt} {rs : List LPRule} {xs}
    (hrs : ∀ r ∈ rs, r.head = .pred (.aux (st.count + 1)) xs)
    (ho : Own P st.count ⟨st1.count, st1.rules ++ rs⟩) : Own P (st.count + 1) st1 := by
  intro r hr k args hk h1 h2
  have := ho r hr k args hk (by omega) h2
  rcases List.mem_append.mp this with g | g
  · exact g
  · have := hrs r g
    rw [hk] at this
    cases this
    omega

mutual
/-- If the body made of a formula is true, the formula, without negations, is true. -/
theorem lpFormula_exact {X : LPInput} {V : Var → Prop} (hV : VarScope X V) {dom : Domains} {R : CmpRel} {P : List LPRule}
    {M : LPSym → List String → Prop} (hM : AuxSup R P M) (hT : TypesOnly dom V M) {ord : List Var → List Var} {incl : Bool}
    (hord : ∀ l v, v ∈ ord l ↔ v ∈ l) : ∀ (f : Formula) {st : LPSt} {body st'},
    lpFormula ord incl st f = .ok (body, st') → AuxLe st → Own P st.count st' → FlatF V f → NoRebind f →
    ClosedEx (fun _ => False) f → ∀ σ θ, AsgMatch V σ θ → (∀ l ∈ body, LitTrue R M θ l) →
    Sat (stateInterp dom R (atomsOf M)) (dropNeg incl f) σ
  | .top, st, body, st', h, _, _, _, _, _, σ, θ, _, _ => by simp [dropNeg, Sat]
  | .bot, st, body, st', h, _, _, _, _, _, σ, θ, _, _ => by simp [lpFormula] at h
  | .atom p ts, st, body, st', h, _, _, hf, _, _, σ, θ, hm, hb => by
    simp only [lpFormula] at h
    cases h1 : lpAtom p ts with
    | error e => simp [h1] at h
    | ok l =>
      simp only [h1, Except.ok.injEq, Prod.mk.injEq] at h
      obtain ⟨rfl, _⟩ := h
      exact (lpAtom_val hV hf h1 hm).mp (hb l (by simp))
  | .comp k .and fs, st, body, st', h, hl, ho, hf, hr, hc, σ, θ, hm, hb => by
    simp only [lpFormula] at h
    simp only [dropNeg, Sat]
    exact lpConj_exact hV hM hT hord fs h hl ho hf hr hc σ θ hm hb
  | .comp k .or fs, st, body, st', h, hl, ho, hf, hr, hc, σ, θ, hm, hb => by
    simp only [lpFormula] at h
    cases h1 : freeVariables (.comp k .or fs) with
    | error e => simp [h1] at h
    | ok vs =>
      cases h2 : lpTerms ((ord vs).map .var) with
      | error e => simp [h1, h2] at h
      | ok xs =>
        cases h3 : lpTypes ((ord vs).map .var) with
        | error e => simp [h1, h2, h3] at h
        | ok tys =>
          cases h4 : lpDisj ord incl ⟨st.count + 1, st.rules⟩ fs with
          | error e => simp [h1, h2, h3, h4] at h
          | ok p =>
            obtain ⟨bodies, st1⟩ := p
            simp only [h1, h2, h3, h4, Except.ok.injEq, Prod.mk.injEq] at h
            obtain ⟨rfl, rfl⟩ := h
            have hfv := freeVariables_flat hf hr h1
            have hvV : ∀ v ∈ ord vs, V v := fun v hv => flat_free_V hf ((hfv v).mp ((hord vs v).mp hv))
            have haux := hb _ (List.mem_singleton.mpr rfl)
            simp only [LitTrue] at haux
            obtain ⟨r, hrP, θ', args, e1, e2, e3⟩ := hM _ _ haux
            have hx := lpDisj_ext fs h4
            have hlast := own_last hl hx ho hrP e1
            obtain ⟨b, hbm, rfl⟩ := List.mem_map.mp hlast
            simp only [LPLit.pred.injEq, true_and] at e1
            subst e1
            have hm' := valAsg_match hV θ'
            rw [lpTerms_vars_val hV hvV h2 hm', lpTerms_vars_val hV hvV h2 hm] at e2
            have hagree : ∀ v ∈ ord vs, valAsg θ' v = σ v := fun v hv => List.map_inj_left.mp e2 v hv
            have hany := lpDisj_exact hV hM hT hord fs h4 (fun r hr k args hk => by
                have := hl r hr k args hk; simp only; omega)
              (own_inner (xs := xs) (by
                intro r hr
                obtain ⟨b, _, rfl⟩ := List.mem_map.mp hr
                rfl) ho) hf hr hc (valAsg θ') θ' hm'
              ⟨b, hbm, fun l hl => e3 l (List.mem_append_left _ hl)⟩
            have hsat : Sat (stateInterp dom R (atomsOf M)) (dropNeg incl (.comp k .or fs)) (valAsg θ') := by
              simpa only [dropNeg, Sat] using hany
            refine (sat_coinc _ _ _ _ ?_).mp hsat
            intro v hv
            exact hagree v ((hord vs v).mpr ((hfv v).mpr (dropNeg_free hv)))
  | .comp k .not fs, st, body, st', h, _, _, hf, _, _, σ, θ, hm, hb => by
    simp only [lpFormula] at h
    split at h
    · rename_i hi
      match fs, h with
      | [.atom p ts], h =>
        simp only at h
        cases h1 : lpAtom p ts with
        | error e => simp [h1] at h
        | ok l =>
          simp only [h1, Except.ok.injEq, Prod.mk.injEq] at h
          obtain ⟨rfl, _⟩ := h
          simp only [FlatF, FlatFs, and_true] at hf
          cases p with
          | user n => simp [dropNeg, hi, Sat]
          | cmp c =>
            have := (negateLP_val hV hf h1 hm (dom := dom) (R := R) (M := M)).mp (hb _ (by simp))
            simpa [dropNeg, hi, Sat, SatAll] using this
      | [], h => simp at h
      | [.top], h => simp at h
      | [.bot], h => simp at h
      | [.comp _ _ _], h => simp at h
      | [.quant _ _ _], h => simp at h
      | _ :: _ :: _, h => simp at h
    · rename_i hi
      simp [dropNeg, hi, Sat]
  | .quant .exists vs f, st, body, st', h, hl, ho, hf, hr, hc, σ, θ, hm, hb => by
    simp only [lpFormula] at h
    simp only [dropNeg, Sat]
    cases h1 : lpTypes vs with
    | error e => simp [h1] at h
    | ok tys =>
      cases h2 : lpFormula ord incl ⟨st.count + 1, st.rules⟩ f with
      | error e => simp [h1, h2] at h
      | ok p =>
        obtain ⟨b, st1⟩ := p
        simp only [h1, h2, Except.ok.injEq, Prod.mk.injEq] at h
        obtain ⟨rfl, rfl⟩ := h
        have haux := hb _ (List.mem_singleton.mpr rfl)
        simp only [LitTrue, List.map_nil] at haux
        obtain ⟨r, hrP, θ', args, e1, e2, e3⟩ := hM _ _ haux
        have hx := lpFormula_ext f h2
        have hlast := own_last hl hx ho hrP e1
        simp only [List.mem_singleton] at hlast
        subst hlast
        have hm' := valAsg_match hV θ'
        have hsat := lpFormula_exact hV hM hT hord f h2 (fun r hr k args hk => by
            have := hl r hr k args hk; simp only; omega)
          (own_inner (xs := []) (by simp) ho) hf.2 hr.2.2 hc.2 (valAsg θ') θ' hm' (fun l hl => e3 l (List.mem_append_left _ hl))
        have hty := (lpTypes_vars hV (R := R) (M := M) hm' hf.1 h1).mp (fun l hl => e3 l (List.mem_append_right _ hl))
        rw [quantBlock_exists']
        classical
        refine ⟨fun v => if Term.var v ∈ vs then valAsg θ' v else σ v, ?_, ?_, ?_⟩
        · intro v hv
          simp only [hv, if_true]
          obtain ⟨w, e, hw⟩ := hf.1 _ hv
          cases e
          exact hT v hw _ (hty v hv)
        · intro v hv
          simp [hv]
        · refine (sat_coinc _ _ _ _ ?_).mp hsat
          intro v hv
          rcases hc.1 v (dropNeg_free hv) with g | g
          · simp [g]
          · exact g.elim
  | .quant .forall vs f, st, body, st', h, _, _, _, _, _, σ, θ, _, _ => by simp [lpFormula] at h
theorem lpConj_exact {X : LPInput} {V : Var → Prop} (hV : VarScope X V) {dom : Domains} {R : CmpRel} {P : List LPRule}
    {M : LPSym → List String → Prop} (hM : AuxSup R P M) (hT : TypesOnly dom V M) {ord : List Var → List Var} {incl : Bool}
    (hord : ∀ l v, v ∈ ord l ↔ v ∈ l) : ∀ (fs : List Formula) {st : LPSt} {body st'},
    lpConj ord incl st fs = .ok (body, st') → AuxLe st → Own P st.count st' → FlatFs V fs → NoRebinds fs →
    ClosedExs (fun _ => False) fs → ∀ σ θ, AsgMatch V σ θ → (∀ l ∈ body, LitTrue R M θ l) →
    SatAll (stateInterp dom R (atomsOf M)) (dropNegs incl fs) σ
  | [], st, body, st', h, _, _, _, _, _, σ, θ, _, _ => by simp [dropNegs, SatAll]
  | f :: fs, st, body, st', h, hl, ho, hf, hr, hc, σ, θ, hm, hb => by
    simp only [lpConj] at h
    cases h1 : lpFormula ord incl st f with
    | error e => simp [h1] at h
    | ok p =>
      obtain ⟨b, st1⟩ := p
      cases h2 : lpConj ord incl st1 fs with
      | error e => simp [h1, h2] at h
      | ok p =>
        obtain ⟨bs, st2⟩ := p
        simp only [h1, h2, Except.ok.injEq, Prod.mk.injEq] at h
        obtain ⟨rfl, rfl⟩ := h
        have x1 := lpFormula_ext f h1
        have x2 := lpConj_ext fs h2
        simp only [dropNegs, SatAll]
        exact ⟨lpFormula_exact hV hM hT hord f h1 hl (ho.before x2) hf.1 hr.1 hc.1 σ θ hm
            (fun l hl => hb l (List.mem_append_left _ hl)),
          lpConj_exact hV hM hT hord fs h2 (x1.auxLe hl) (ho.mono x1.1) hf.2 hr.2 hc.2 σ θ hm
            (fun l hl => hb l (List.mem_append_right _ hl))⟩
theorem lpDisj_exact {X : LPInput} {V : Var → Prop} (hV : VarScope X V) {dom : Domains} {R : CmpRel} {P : List LPRule}
    {M : LPSym → List String → Prop} (hM : AuxSup R P M) (hT : TypesOnly dom V M) {ord : List Var → List Var} {incl : Bool}
    (hord : ∀ l v, v ∈ ord l ↔ v ∈ l) : ∀ (fs : List Formula) {st : LPSt} {bodies st'},
    lpDisj ord incl st fs = .ok (bodies, st') → AuxLe st → Own P st.count st' → FlatFs V fs → NoRebinds fs →
    ClosedExs (fun _ => False) fs → ∀ σ θ, AsgMatch V σ θ → (∃ b ∈ bodies, ∀ l ∈ b, LitTrue R M θ l) →
    SatAny (stateInterp dom R (atomsOf M)) (dropNegs incl fs) σ
  | [], st, body, st', h, _, _, _, _, _, σ, θ, _, hb => by
    simp only [lpDisj, Except.ok.injEq, Prod.mk.injEq] at h
    obtain ⟨rfl, _⟩ := h
    simp at hb
  | f :: fs, st, body, st', h, hl, ho, hf, hr, hc, σ, θ, hm, hb => by
    simp only [lpDisj] at h
    cases h1 : lpFormula ord incl st f with
    | error e => simp [h1] at h
    | ok p =>
      obtain ⟨b, st1⟩ := p
      cases h2 : lpDisj ord incl st1 fs with
      | error e => simp [h1, h2] at h
      | ok p =>
        obtain ⟨bs, st2⟩ := p
        simp only [h1, h2, Except.ok.injEq, Prod.mk.injEq] at h
        obtain ⟨rfl, rfl⟩ := h
        have x1 := lpFormula_ext f h1
        have x2 := lpDisj_ext fs h2
        simp only [dropNegs, SatAny]
        obtain ⟨b', hb', ht⟩ := hb
        rcases List.mem_cons.mp hb' with rfl | hb'
        · exact .inl (lpFormula_exact hV hM hT hord f h1 hl (ho.before x2) hf.1 hr.1 hc.1 σ θ hm ht)
        · exact .inr (lpDisj_exact hV hM hT hord fs h2 (x1.auxLe hl) (ho.mono x1.1) hf.2 hr.2 hc.2 σ θ hm ⟨b', hb', ht⟩)
end


/-! ### Conditions -/

theorem lpCondition_exact {X : LPInput} (W : LPWellFormed X) {V : Var → Prop} (hV : VarScope X V) {R : CmpRel} {P : List LPRule}
    {M : LPSym → List String → Prop} (hM : AuxSup R P M) (hT : TypesOnly X.dom V M) {ord : List Var → List Var} {incl : Bool}
    (hord : ∀ l v, v ∈ ord l ↔ v ∈ l) {f st b st' ps} (h : lpCondition X.dom ord incl st f = .ok (b, st')) (hl : AuxLe st)
    (ho : Own P st.count st') (hf : CondOK V ps f) (ht : TightCond incl (fun _ => False) f) {σ θ} (hm : AsgMatch V σ θ)
    (hb : ∀ l ∈ b, LitTrue R M θ l) : Sat (stateInterp X.dom R (atomsOf M)) (dropNeg incl f) σ := by
  simp only [lpCondition] at h
  have hgd := goodDom_of W hV
  cases h1 : removeQuantifiers X.dom .forall f with
  | error e => simp [h1] at h
  | ok g =>
    simp only [h1] at h
    obtain ⟨q1, q2, _, _⟩ := qe_flat .forall W.constDoms hgd f g h1 hf.flat hf.rebind
    have hg := lpFormula_exact hV hM hT hord g h hl ho q1 q2
      (qe_closedEx W.constDoms hgd f g h1 hf.flat hf.rebind _ ht.1) σ θ hm hb
    exact (qe_dropNeg W.constDoms hgd .forall R _ f g h1 hf.flat hf.rebind ht.2 σ).mp hg

theorem lpCondition_relaxed {X V R P M ord} (H : DerCtx X V R P M ord) {incl st f b st' ps}
    (h : lpCondition X.dom ord incl st f = .ok (b, st')) (hP : ∀ r ∈ st'.rules, r ∈ P) (hf : CondOK V ps f)
    (hn : incl = true → NegAtoms f) {σ θ}
    (hm : AsgMatch V σ θ) (ht : ∀ v ∈ ps, OfSort X.dom v.sort (σ v))
    (hs : Sat (stateInterp X.dom R (atomsOf M)) (dropNeg incl f) σ) : ∀ l ∈ b, LitTrue R M θ l := by
  simp only [lpCondition] at h
  cases h1 : removeQuantifiers X.dom .forall f with
  | error e => simp [h1] at h
  | ok g =>
    simp only [h1] at h
    obtain ⟨q1, q2, q3, _⟩ := qe_flat .forall H.consts H.good f g h1 hf.flat hf.rebind
    exact lpFormula_complete H.scope H.model H.types H.ord g h hP q1 q2 σ θ hm (fun v hv => ht v (hf.free v (q3 v hv)))
      ((qe_dropNeg H.consts H.good .forall R _ f g h1 hf.flat hf.rebind hn σ).mpr hs)

/-! ### Where the rules come from -/

def IsAuxRule (r : LPRule) : Prop := ∃ k args, r.head = .pred (.aux k) args

theorem lpCondition_origin {dom ord incl st f b st'} (h : lpCondition dom ord incl st f = .ok (b, st')) {r} (hr : r ∈ st'.rules) :
    r ∈ st.rules ∨ IsAuxRule r := by
  obtain ⟨_, rs, e, q⟩ := lpCondition_ext h
  rw [e] at hr
  rcases List.mem_append.mp hr with hr | hr
  · exact .inl hr
  · obtain ⟨k, args, h, _⟩ := q r hr
    exact .inr ⟨k, args, h⟩

/-- The rule is made of the add effect `x`. -/
def EffRule (dom : Domains) (ord : List Var → List Var) (incl : Bool) (pre : List LPLit) (st st' : LPSt) (x : Effect) (r : LPRule) :
    Prop := ∃ c p ts hd b st1 st2, x = .add c p ts ∧ lpAtom p ts = .ok hd ∧ lpCondition dom ord incl st1 c = .ok (b, st2) ∧
      LPExt st st1 ∧ LPExt st2 st' ∧ r = ⟨hd, pre ++ b⟩

theorem EffRule.weaken {dom ord incl pre} {a b c d : LPSt} {x r} (h : EffRule dom ord incl pre b c x r) (h1 : LPExt a b)
    (h2 : LPExt c d) : EffRule dom ord incl pre a d x r := by
  obtain ⟨c', p, ts, hd, bd, st1, st2, e1, e2, e3, e4, e5, e6⟩ := h
  exact ⟨c', p, ts, hd, bd, st1, st2, e1, e2, e3, h1.trans e4, e5.trans h2, e6⟩

theorem lpEffect_origin {dom ord incl pre st x st'} (h : lpEffect dom ord incl pre st x = .ok st') {r} (hr : r ∈ st'.rules) :
    r ∈ st.rules ∨ IsAuxRule r ∨ EffRule dom ord incl pre st st' x r := by
  cases x with
  | add c p ts =>
    simp only [lpEffect] at h
    cases h1 : lpAtom p ts with
    | error e => simp [h1] at h
    | ok hd =>
      cases h2 : lpCondition dom ord incl st c with
      | error e => simp [h1, h2] at h
      | ok t =>
        obtain ⟨b, st1⟩ := t
        simp only [h1, h2, Except.ok.injEq] at h
        subst h
        simp only [LPSt.add, List.mem_append, List.mem_singleton] at hr
        rcases hr with hr | rfl
        · rcases lpCondition_origin h2 hr with g | g
          · exact .inl g
          · exact .inr (.inl g)
        · exact .inr (.inr ⟨c, p, ts, hd, b, st, st1, rfl, h1, h2, .refl _,
            (LPExt.refl st1).add_right (lpAtom_notAux h1), rfl⟩)
  | del c p ts => simp only [lpEffect, Except.ok.injEq] at h; subst h; exact .inl hr
  | assign c f ts r => simp [lpEffect] at h
  | lit c l => simp [lpEffect] at h
  | univ c vs es => simp [lpEffect] at h

theorem lpEffects_origin {dom ord incl pre} : ∀ {es : List Effect} {st st'}, lpEffects dom ord incl pre st es = .ok st' →
    ∀ {r}, r ∈ st'.rules → r ∈ st.rules ∨ IsAuxRule r ∨ ∃ x ∈ es, EffRule dom ord incl pre st st' x r
  | [], st, st', h, r, hr => by simp only [lpEffects, Except.ok.injEq] at h; subst h; exact .inl hr
  | e :: es, st, st', h, r, hr => by
    simp only [lpEffects] at h
    cases h1 : lpEffect dom ord incl pre st e with
    | error e => simp [h1] at h
    | ok st1 =>
      simp only [h1] at h
      have x1 := lpEffect_ext h1
      have x2 := (lpEffects_mem h).1
      rcases lpEffects_origin h hr with g | g | ⟨x, hx, g⟩
      · rcases lpEffect_origin h1 g with g | g | g
        · exact .inl g
        · exact .inr (.inl g)
        · exact .inr (.inr ⟨e, by simp, g.weaken (.refl _) x2⟩)
      · exact .inr (.inl g)
      · exact .inr (.inr ⟨x, by simp [hx], g.weaken x1 (.refl _)⟩)

theorem lpExpanded_origin {dom ord incl pre} : ∀ {es : List Effect} {st st'}, lpExpanded dom ord incl pre st es = .ok st' →
    ∀ {r}, r ∈ st'.rules → r ∈ st.rules ∨ IsAuxRule r ∨ ∃ e ∈ es, ∃ xs, expandUniversal dom e = .ok xs ∧
      ∃ x ∈ xs, EffRule dom ord incl pre st st' x r
  | [], st, st', h, r, hr => by simp only [lpExpanded, Except.ok.injEq] at h; subst h; exact .inl hr
  | e :: es, st, st', h, r, hr => by
    simp only [lpExpanded] at h
    cases h0 : expandUniversal dom e with
    | error e => simp [h0] at h
    | ok xs =>
      cases h1 : lpEffects dom ord incl pre st xs with
      | error e => simp [h0, h1] at h
      | ok st1 =>
        simp only [h0, h1] at h
        have x1 := (lpEffects_mem h1).1
        have x2 := (lpExpanded_mem h).1
        rcases lpExpanded_origin h hr with g | g | ⟨e', he', ys, hy, x, hx, g⟩
        · rcases lpEffects_origin h1 g with g | g | ⟨x, hx, g⟩
          · exact .inl g
          · exact .inr (.inl g)
          · exact .inr (.inr ⟨e, by simp, xs, h0, x, hx, g.weaken (.refl _) x2⟩)
        · exact .inr (.inl g)
        · exact .inr (.inr ⟨e', by simp [he'], ys, hy, x, hx, g.weaken x1 (.refl _)⟩)

/-- The literals with which the rules of the effects of an action begin. -/
def EffPre (dom : Domains) (ord : List Var → List Var) (ground incl : Bool) (st st' : LPSt) (n : String) (a : Schema)
    (pre : List LPLit) : Prop :=
  if ground then ∃ xs, lpTerms (a.params.map .var) = .ok xs ∧ pre = [.pred (.action n) xs]
  else ∃ tys b st1 st2, lpTypes (a.params.map .var) = .ok tys ∧ lpCondition dom ord incl st1 a.pre = .ok (b, st2) ∧
    LPExt st st1 ∧ LPExt st2 st' ∧ pre = tys ++ b

/-- The rule is made of the action. -/
def ActRule (dom : Domains) (ord : List Var → List Var) (ground incl : Bool) (st st' : LPSt) (n : String) (a : Schema)
    (r : LPRule) : Prop :=
  (ground = true ∧ ∃ xs tys b st1 st2, lpTerms (a.params.map .var) = .ok xs ∧ lpTypes (a.params.map .var) = .ok tys ∧
    lpCondition dom ord incl st1 a.pre = .ok (b, st2) ∧ LPExt st st1 ∧ LPExt st2 st' ∧ r = ⟨.pred (.action n) xs, tys ++ b⟩) ∨
  ∃ e ∈ a.effs, ∃ xs, expandUniversal dom e = .ok xs ∧ ∃ x ∈ xs, ∃ pre, EffPre dom ord ground incl st st' n a pre ∧
    EffRule dom ord incl pre st st' x r

theorem EffPre.weaken {dom ord ground incl} {a b c d : LPSt} {n s pre} (h : EffPre dom ord ground incl b c n s pre)
    (h1 : LPExt a b) (h2 : LPExt c d) : EffPre dom ord ground incl a d n s pre := by
  unfold EffPre at h ⊢
  split
  · rename_i hg; simpa [hg] using h
  · rename_i hg
    simp only [hg, Bool.false_eq_true, if_false] at h
    obtain ⟨tys, bd, s1, s2, e1, e2, e3, e4, e5⟩ := h
    exact ⟨tys, bd, s1, s2, e1, e2, h1.trans e3, e4.trans h2, e5⟩

theorem ActRule.weaken {dom ord ground incl} {a b c d : LPSt} {n s r} (h : ActRule dom ord ground incl b c n s r)
    (h1 : LPExt a b) (h2 : LPExt c d) : ActRule dom ord ground incl a d n s r := by
  rcases h with ⟨hg, xs, tys, bd, s1, s2, e1, e2, e3, e4, e5, e6⟩ | ⟨e, he, xs, hx, x, hxm, pre, hp, hr⟩
  · exact .inl ⟨hg, xs, tys, bd, s1, s2, e1, e2, e3, h1.trans e4, e5.trans h2, e6⟩
  · exact .inr ⟨e, he, xs, hx, x, hxm, pre, hp.weaken h1 h2, hr.weaken h1 h2⟩

theorem lpAct_origin {X : LPInput} {ord ground incl st n a st'} (h : lpAct X ord ground incl st n a = .ok st') {r}
    (hr : r ∈ st'.rules) : r ∈ st.rules ∨ IsAuxRule r ∨ ActRule X.dom ord ground incl st st' n a r := by
  cases ground with
  | true =>
    simp only [lpAct, if_true] at h
    obtain ⟨xs, tys, b, st1, h1, h2, h3, h4⟩ := lpAction_parts h
    have x1 := (lpCondition_ext h3).lpExt
    have x2 := (lpExpanded_mem h4).1
    have x12 : LPExt st1 (st1.add ⟨.pred (.action n) xs, tys ++ b⟩) := (LPExt.refl st1).add_right (by simp)
    rcases lpExpanded_origin h4 hr with g | g | ⟨e, he, ys, hy, x, hx, g⟩
    · simp only [LPSt.add, List.mem_append, List.mem_singleton] at g
      rcases g with g | rfl
      · rcases lpCondition_origin h3 g with g | g
        · exact .inl g
        · exact .inr (.inl g)
      · exact .inr (.inr (.inl ⟨rfl, xs, tys, b, st, st1, h1, h2, h3, .refl _, x12.trans x2, rfl⟩))
    · exact .inr (.inl g)
    · refine .inr (.inr (.inr ⟨e, he, ys, hy, x, hx, _, ?_, g.weaken (x1.trans x12) (.refl _)⟩))
      simp only [EffPre, if_true]
      exact ⟨xs, h1, rfl⟩
  | false =>
    simp only [lpAct, Bool.false_eq_true, if_false] at h
    obtain ⟨tys, b, st1, h2, h3, h4⟩ := lpActionVO_parts h
    have x1 := (lpCondition_ext h3).lpExt
    have x2 := (lpEffects_mem h4).1
    rcases lpEffects_origin h4 hr with g | g | ⟨x, hx, g⟩
    · rcases lpCondition_origin h3 g with g | g
      · exact .inl g
      · exact .inr (.inl g)
    · exact .inr (.inl g)
    · refine .inr (.inr (.inr ⟨x, hx, [x], ?_, x, by simp, _, ?_, g.weaken x1 (.refl _)⟩))
      · obtain ⟨c, p, ts, hd, bd, s1, s2, rfl, _⟩ := g
        rfl
      · simp only [EffPre, Bool.false_eq_true, if_false]
        exact ⟨tys, b, st, st1, h2, h3, .refl _, x2, rfl⟩

theorem lpActions_origin {X : LPInput} {ord ground incl} : ∀ {as : List (String × Schema)} {st st'},
    lpActions X.dom (lpAct X ord ground incl) st as = .ok st' → ∀ {r}, r ∈ st'.rules → r ∈ st.rules ∨ IsAuxRule r ∨
      ∃ n a, (n, a) ∈ as ∧ ActRule X.dom ord ground incl st st' n a r
  | [], st, st', h, r, hr => by simp only [lpActions, Except.ok.injEq] at h; subst h; exact .inl hr
  | (n, a) :: as, st, st', h, r, hr => by
    simp only [lpActions] at h
    cases h1 : allInhabited X.dom a.params with
    | error e => simp [h1] at h
    | ok b =>
      cases b with
      | false =>
        simp only [h1] at h
        rcases lpActions_origin h hr with g | g | ⟨n', a', hm, g⟩
        · exact .inl g
        · exact .inr (.inl g)
        · exact .inr (.inr ⟨n', a', by simp [hm], g⟩)
      | true =>
        simp only [h1] at h
        cases h2 : lpAct X ord ground incl st n a with
        | error e => simp [h2] at h
        | ok st1 =>
          simp only [h2] at h
          have x1 := lpAct_ext h2
          have x2 := (lpActions_mem (fun _ _ _ _ h => lpAct_ext h) h).1
          rcases lpActions_origin h hr with g | g | ⟨n', a', hm, g⟩
          · rcases lpAct_origin h2 g with g | g | g
            · exact .inl g
            · exact .inr (.inl g)
            · exact .inr (.inr ⟨n, a, by simp, g.weaken (.refl _) x2⟩)
          · exact .inr (.inl g)
          · exact .inr (.inr ⟨n', a', by simp [hm], g.weaken x1 (.refl _)⟩)

theorem lpConsts_origin : ∀ {cs : List (Name × String)} {st st'}, lpConsts st cs = .ok st' → ∀ {r}, r ∈ st'.rules →
    r ∈ st.rules ∨ ∃ n s l, (n, s) ∈ cs ∧ lpType (.const n s) = .ok l ∧ r = ⟨l, []⟩
  | [], st, st', h, r, hr => by simp only [lpConsts, Except.ok.injEq] at h; subst h; exact .inl hr
  | (n, s) :: cs, st, st', h, r, hr => by
    simp only [lpConsts] at h
    cases h1 : lpType (.const n s) with
    | error e => simp [h1] at h
    | ok l =>
      simp only [h1] at h
      rcases lpConsts_origin h hr with g | ⟨n', s', l', g1, g2, g3⟩
      · simp only [LPSt.add, List.mem_append, List.mem_singleton] at g
        rcases g with g | rfl
        · exact .inl g
        · exact .inr ⟨n, s, l, by simp, h1, rfl⟩
      · exact .inr ⟨n', s', l', by simp [g1], g2, g3⟩

theorem lpSorts_origin {X : LPInput} : ∀ {ss : List String} {st st'}, lpSorts X st ss = .ok st' → ∀ {r}, r ∈ st'.rules →
    r ∈ st.rules ∨ ∃ s p, s ∈ ss ∧ X.interval s = false ∧ X.parent s = some p ∧
      r = ⟨.pred (.type p) ["X"], [.pred (.type s) ["X"]]⟩
  | [], st, st', h, r, hr => by simp only [lpSorts, Except.ok.injEq] at h; subst h; exact .inl hr
  | s :: ss, st, st', h, r, hr => by
    have key : ∀ {st1}, lpSorts X st1 ss = .ok st' → r ∈ st1.rules ∨ ∃ s' p, s' ∈ s :: ss ∧ X.interval s' = false ∧
        X.parent s' = some p ∧ r = ⟨.pred (.type p) ["X"], [.pred (.type s') ["X"]]⟩ := by
      intro st1 h
      rcases lpSorts_origin h hr with g | ⟨s', p, g1, g2, g3, g4⟩
      · exact .inl g
      · exact .inr ⟨s', p, by simp [g1], g2, g3, g4⟩
    simp only [lpSorts] at h
    cases hi : X.interval s with
    | true => simp only [hi, if_true] at h; exact key h
    | false =>
      simp only [hi, Bool.false_eq_true, if_false] at h
      cases hp : X.parent s with
      | none => simp only [hp] at h; exact key h
      | some p =>
        simp only [hp] at h
        cases hd : X.dom s with
        | error e => simp [hd] at h
        | ok cs =>
          cases cs with
          | nil => simp only [hd] at h; exact key h
          | cons c cs =>
            simp only [hd] at h
            rcases key h with g | g
            · simp only [LPSt.add, List.mem_append, List.mem_singleton] at g
              rcases g with g | rfl
              · exact .inl g
              · exact .inr ⟨s, p, by simp, hi, hp, rfl⟩
            · exact .inr g

theorem lpInitAtoms_origin : ∀ {as : List (String × List Term)} {st st'}, lpInitAtoms st as = .ok st' → ∀ {r}, r ∈ st'.rules →
    r ∈ st.rules ∨ ∃ p ts l, (p, ts) ∈ as ∧ lpAtom (.user p) ts = .ok l ∧ r = ⟨l, []⟩
  | [], st, st', h, r, hr => by simp only [lpInitAtoms, Except.ok.injEq] at h; subst h; exact .inl hr
  | (p, ts) :: as, st, st', h, r, hr => by
    simp only [lpInitAtoms] at h
    cases h1 : lpAtom (.user p) ts with
    | error e => simp [h1] at h
    | ok l =>
      simp only [h1] at h
      rcases lpInitAtoms_origin h hr with g | ⟨p', ts', l', g1, g2, g3⟩
      · simp only [LPSt.add, List.mem_append, List.mem_singleton] at g
        rcases g with g | rfl
        · exact .inl g
        · exact .inr ⟨p, ts, l, by simp, h1, rfl⟩
      · exact .inr ⟨p', ts', l', by simp [g1], g2, g3⟩

/-! ### A model of the program -/

/-- Truth of the auxiliary atoms, given the others. -/
inductive AuxDer (R : CmpRel) (P : List LPRule) (N : LPSym → List String → Prop) : LPSym → List String → Prop where
  | base (s : LPSym) (as : List String) : (∀ k, s ≠ .aux k) → N s as → AuxDer R P N s as
  | rule (r : LPRule) (θ : String → String) (k : Nat) (args : List String) : r ∈ P → r.head = .pred (.aux k) args →
      (∀ s' as, LPLit.pred s' as ∈ r.body → AuxDer R P N s' (as.map (lpInst θ))) →
      (∀ c a b, LPLit.cmp c a b ∈ r.body → R.rel c (lpInst θ a) (lpInst θ b)) →
      AuxDer R P N (.aux k) (args.map (lpInst θ))

theorem auxDer_base {R P N s as} (hs : ∀ k, s ≠ .aux k) : AuxDer R P N s as ↔ N s as := by
  constructor
  · intro h
    cases h with
    | base _ _ _ h => exact h
    | rule r θ k args => exact absurd rfl (hs k)
  · exact fun h => .base _ _ hs h

theorem auxDer_sup {R P N} : AuxSup R P (AuxDer R P N) := by
  intro k as h
  cases h with
  | base _ _ h _ => exact absurd rfl (h k)
  | rule r θ _ args h1 h2 h3 h4 =>
    refine ⟨r, h1, θ, args, h2, rfl, ?_⟩
    intro l hl
    cases l with
    | pred s' as => exact h3 s' as hl
    | cmp c a b => exact h4 c a b hl
    | taut => trivial

theorem auxDer_aux {R P N r θ k args} (hr : r ∈ P) (hh : r.head = .pred (.aux k) args)
    (hb : ∀ l ∈ r.body, LitTrue R (AuxDer R P N) θ l) : AuxDer R P N (.aux k) (args.map (lpInst θ)) :=
  .rule r θ k args hr hh (fun s' as h => hb _ h) (fun c a b h => hb _ h)

/-- What a closed set of atoms says of the other symbols. -/
def relaxTruth (X : LPInput) (R : CmpRel) (incl : Bool) (S : PState) : LPSym → List String → Prop
  | .type s, as => ∃ n, UnderSort X n s ∧ as = [nameText n]
  | .atom p, as => S p as
  | .action n, as => ∃ a σ, (n, a) ∈ X.actions ∧
      ApplicableIn (stateInterp X.dom R S) ⟨a.params, dropNeg incl a.pre, a.effs⟩ σ ∧ as = a.params.map σ
  | .goal, as => as = [] ∧ ∃ σ, Sat (stateInterp X.dom R S) (dropNeg incl X.goal) σ
  | .aux _, _ => False

theorem relaxTruth_types {X : LPInput} (W : LPWellFormed X) {V : Var → Prop} (hV : VarScope X V) {R P incl S} :
    TypesOnly X.dom V (AuxDer R P (relaxTruth X R incl S)) := by
  intro v hv d h
  obtain ⟨n, hu, he⟩ := (auxDer_base (by simp)).mp h
  simp only [List.cons.injEq, and_true] at he
  subst he
  obtain ⟨hs, hi⟩ := hV.sort v hv
  obtain ⟨cs, hcs, hiff⟩ := W.doms _ hs hi
  obtain ⟨so, hso⟩ := (hiff n).mpr hu
  exact ⟨cs, n, so, hcs, hso, rfl⟩

/-- The substitutions for the variables of a universal effect give them values of their sorts. -/
theorem enumSubsts_sound {V : Var → Prop} {dom : Domains} (hc : ConstDoms dom) (hd : GoodDom V dom) {vs : List Var} {ss}
    (hV : ∀ v ∈ vs, V v) (h : enumSubsts dom vs = .ok ss) {s} (hs : s ∈ ss) :
    KeysVar s ∧ GoodVals s ∧ (∀ v, (∃ kv ∈ s, kv.1 = Term.var v) ↔ v ∈ vs) ∧ ∀ (R : CmpRel) (S : PState) (σ : Asg String),
      (∀ v, v ∉ vs → updAsg (stateInterp dom R S) s σ v = σ v) ∧
      (∀ v ∈ vs, OfSort dom v.sort (updAsg (stateInterp dom R S) s σ v)) := by
  simp only [enumSubsts] at h
  cases hds : domainsOf dom vs with
  | error e => simp [hds] at h
  | ok ds =>
    simp only [hds, Except.ok.injEq] at h
    subst h
    obtain ⟨values, hv, rfl⟩ := List.mem_map.mp hs
    have hf : List.Forall₂ (fun (v : Var) c => ∃ cs n so, dom v.sort = .ok cs ∧ c ∈ cs ∧ c = Term.const n so ∧
        isAspVar (nameText n) = false) vs values := by
      clear hs
      induction vs generalizing ds values with
      | nil =>
        simp only [domainsOf, Except.ok.injEq] at hds
        subst hds
        simp only [cart, List.mem_singleton] at hv
        subst hv
        exact .nil
      | cons v vs ih =>
        simp only [domainsOf] at hds
        cases e1 : dom v.sort with
        | error e => simp [e1] at hds
        | ok d =>
          cases e2 : domainsOf dom vs with
          | error e => simp [e1, e2] at hds
          | ok ds' =>
            simp only [e1, e2, Except.ok.injEq] at hds
            subst hds
            simp only [cart, List.mem_flatMap, List.mem_map] at hv
            obtain ⟨c, hcd, vals', hv', rfl⟩ := hv
            obtain ⟨n, so, rfl⟩ := hc _ _ e1 c hcd
            exact .cons ⟨d, n, so, e1, hcd, rfl, hd v (hV v (by simp)) _ e1 n so hcd⟩
              (ih (fun v h => hV v (by simp [h])) ds' e2 _ hv')
    have hz : ∀ kv ∈ (vs.map Term.var).zip values, ∃ v ∈ vs, kv.1 = Term.var v ∧ ∃ cs n so, dom v.sort = .ok cs ∧ kv.2 ∈ cs ∧
        kv.2 = Term.const n so ∧ isAspVar (nameText n) = false := by
      clear hV hds hv hs
      induction hf with
      | nil => simp
      | cons g _ ih =>
        intro kv hkv
        simp only [List.map_cons, List.zip_cons_cons, List.mem_cons] at hkv
        rcases hkv with rfl | hkv
        · exact ⟨_, by simp, rfl, g⟩
        · obtain ⟨w, hw, h'⟩ := ih kv hkv
          exact ⟨w, by simp [hw], h'⟩
    have hlen : values.length = (vs.map Term.var).length := by simp [hf.length_eq]
    have hk : ∀ v, (∃ kv ∈ (vs.map Term.var).zip values, kv.1 = Term.var v) ↔ v ∈ vs := by
      intro v
      constructor
      · rintro ⟨kv, hkv, he⟩
        obtain ⟨w, hw, hw', _⟩ := hz kv hkv
        rw [he] at hw'
        cases hw'
        exact hw
      · intro hv
        exact zip_key_mem hlen (List.mem_map.mpr ⟨v, hv, rfl⟩)
    refine ⟨?_, ?_, hk, ?_⟩
    · intro kv hkv
      obtain ⟨v, _, h, _⟩ := hz kv hkv
      exact ⟨v, h⟩
    · intro kv hkv
      obtain ⟨v, _, h, cs, n, so, _, _, a, c⟩ := hz kv hkv
      exact ⟨n, so, a, c⟩
    · intro R S σ
      constructor
      · intro v hv
        simp only [updAsg, Subst.visit]
        cases hg : (createSubst (vs.map Term.var) values).get? (.var v) with
        | none => simp [evalT]
        | some u => exact absurd ((hk v).mp ⟨_, get?_eq_some hg, rfl⟩) hv
      · intro v hv
        simp only [updAsg, Subst.visit]
        cases hg : (createSubst (vs.map Term.var) values).get? (.var v) with
        | none =>
          obtain ⟨kv, a, b⟩ := (hk v).mpr hv
          exact absurd b (get?_eq_none.mp hg kv a)
        | some u =>
          obtain ⟨w, hw, h, cs, n, so, a, b, c, _⟩ := hz _ (get?_eq_some hg)
          cases h
          simp only at b c
          subst c
          exact ⟨cs, n, so, a, b, by simp [evalT, stateInterp]⟩

theorem dropNegE_mem {incl} {e : Effect} : ∀ {es : List Effect}, e ∈ es → dropNegE incl e ∈ dropNegEs incl es
  | e1 :: es, h => by
    simp only [dropNegEs]
    rcases List.mem_cons.mp h with rfl | h
    · exact List.mem_cons_self
    · exact List.mem_cons_of_mem _ (dropNegE_mem h)

/-- What an add effect that results from expansion adds is added by the effect it comes from. -/
theorem expanded_causes {X : LPInput} (W : LPWellFormed X) {V : Var → Prop} (hV : VarScope X V) {e xs ps incl}
    (hx : expandUniversal X.dom e = .ok xs) (hf : EffOK V ps e) (ht : TightEff incl e) {c p ts} (hm : Effect.add c (.user p) ts ∈ xs) :
    AddOK V ps c ts ∧ TightCond incl (fun _ => False) c ∧ ∀ (R : CmpRel) (S : PState) (σ : Asg String),
      Sat (stateInterp X.dom R S) (dropNeg incl c) σ →
      Causes (stateInterp X.dom R S) true (dropNegE incl e) σ p (evalTs (stateInterp X.dom R S) ts σ) := by
  cases e with
  | add c' p' ts' =>
    simp only [expandUniversal, Except.ok.injEq] at hx
    subst hx
    simp only [List.mem_singleton, Effect.add.injEq] at hm
    obtain ⟨rfl, rfl, rfl⟩ := hm
    exact ⟨hf, ht, fun R S σ h => .add _ _ _ _ rfl h⟩
  | univ c' vs es =>
    simp only [expandUniversal] at hx
    split at hx
    · rename_i hc'
      subst hc'
      cases hss : enumSubsts X.dom vs with
      | error e => simp [hss] at hx
      | ok ss =>
        simp only [hss, Except.ok.injEq] at hx
        subst hx
        obtain ⟨s, hs, hm⟩ := List.mem_flatMap.mp hm
        obtain ⟨e', he', hse⟩ := List.mem_map.mp hm
        obtain ⟨k1, k2, k3, k4⟩ := enumSubsts_sound W.constDoms (goodDom_of W hV) hf.1 hss hs
        cases e' with
        | add c0 p0 ts0 =>
          simp only [subE, Effect.add.injEq] at hse
          obtain ⟨rfl, rfl, rfl⟩ := hse
          have hadd := hf.2 c0 _ ts0 he'
          have htc := ht c0 _ ts0 he'
          have hfr : ∀ v, BoundF v c0 → Fresh s v := by
            intro v hv
            apply fresh_const k2.consts
            intro kv hkv he
            exact hadd.2 v ((k3 v).mp ⟨kv, hkv, he⟩) hv
          refine ⟨subst_addOK hadd.1 hadd.2 k1 k2 k3, ⟨closedEx_subF k1 k2 (flatF_varBinders hadd.1.cond.flat) hfr
            (fun v hv => .inr ((k3 v).mpr hv)) htc.1, fun hi => negAtoms_subF (htc.2 hi)⟩, ?_⟩
          intro R S σ hsat
          rw [dropNeg_subF, subF_sem _ k1 (dropNeg incl c0) (flatF_varBinders (dropNeg_flat hadd.1.cond.flat))
            (fun v hv => hfr v (dropNeg_bound hv))] at hsat
          rw [subTs_sem _ k1 ts0 (flatTs_varBinders hadd.1.args) (fun v hv => absurd hv (flatTs_not_bound hadd.1.args))]
          refine .univ _ vs _ (.add (dropNeg incl c0) (.user p) ts0) σ _ _ _ (by simp [dropNeg, Sat]) ?_ (k4 R S σ).1 (k4 R S σ).2
            (.add _ _ _ _ rfl hsat)
          exact dropNegE_mem he'
        | del c0 p0 ts0 => simp [subE] at hse
        | lit c0 l => simp [subE] at hse
        | assign c0 f ts0 r => simp [subE] at hse
        | univ c0 vs0 es0 => simp [subE] at hse
    · simp at hx
  | del c' p' ts' =>
    simp only [expandUniversal, Except.ok.injEq] at hx
    subst hx
    simp at hm
  | lit c' l =>
    simp only [expandUniversal, Except.ok.injEq] at hx
    subst hx
    simp at hm
  | assign c' f ts' r =>
    simp only [expandUniversal, Except.ok.injEq] at hx
    subst hx
    simp at hm

theorem own_of_ext {a b : LPSt} {lo} (h : LPExt a b) : Own b.rules lo a := by
  obtain ⟨l, rs, e, q⟩ := h
  intro r hr k args hk _ h2
  rw [e] at hr
  rcases List.mem_append.mp hr with hr | hr
  · exact hr
  · have := q r hr k args hk; omega

theorem auxLe_of_ext {a : LPSt} (h : LPExt ⟨0, []⟩ a) : AuxLe a := by
  obtain ⟨l, rs, e, q⟩ := h
  intro r hr k args hk
  simp only [List.nil_append] at e
  rw [e] at hr
  exact (q r hr k args hk).2

theorem createLP_tight {X : LPInput} (W : LPWellFormed X) {incl} (T : LPTight X incl) {ord : List Var → List Var}
    (hord : ∀ l v, v ∈ ord l ↔ v ∈ l) {ground st R} (h : createLP X ord ground incl = .ok st) {S : PState}
    (hS : RelaxClosed X R incl S) : IsModel R st.rules (AuxDer R st.rules (relaxTruth X R incl S)) := by
  obtain ⟨st1, st2, st3, st4, b, st5, h1, h2, h3, h4, h5, rfl⟩ := createLP_parts h
  have x1 := (lpConsts_mem h1).1
  have x2 := (lpSorts_mem h2).1
  have x3 := (lpInitAtoms_mem h3).1
  have x4 := (lpActions_mem (fun _ _ _ _ h => lpAct_ext h) h4).1
  have x5 := (lpCondition_ext h5).lpExt
  have x6 : LPExt st5 (st5.add ⟨.pred .goal [], b⟩) := (LPExt.refl st5).add_right (by simp)
  generalize hfin : st5.add ⟨.pred .goal [], b⟩ = fin at x6
  have hrules : fin.rules = st5.rules ++ [⟨.pred .goal [], b⟩] := by rw [← hfin]; rfl
  have hat : atomsOf (AuxDer R fin.rules (relaxTruth X R incl S)) = S := by
    funext p as
    exact propext (auxDer_base (by simp))
  have hcond : ∀ {V ps f s1 s2 bd σ θ}, VarScope X V → CondOK V ps f → TightCond incl (fun _ => False) f →
      lpCondition X.dom ord incl s1 f = .ok (bd, s2) → LPExt ⟨0, []⟩ s1 → LPExt s2 fin → AsgMatch V σ θ →
      (∀ l ∈ bd, LitTrue R (AuxDer R fin.rules (relaxTruth X R incl S)) θ l) →
      Sat (stateInterp X.dom R S) (dropNeg incl f) σ := by
    intro V ps f s1 s2 bd σ θ hV hc ht hl e1 e2 hm hb
    have := lpCondition_exact W hV auxDer_sup (relaxTruth_types W hV) hord hl (auxLe_of_ext e1) (own_of_ext e2) hc ht hm hb
    rwa [hat] at this
  intro r hr θ s args hh hb
  rw [hrules, List.mem_append, List.mem_singleton] at hr
  -- auxiliary rules
  have haux : IsAuxRule r → AuxDer R fin.rules (relaxTruth X R incl S) s (args.map (lpInst θ)) := by
    rintro ⟨k, args', he⟩
    rw [hh] at he
    cases he
    exact auxDer_aux (by rw [hrules]; simpa using hr) hh hb
  rcases hr with hr | rfl
  · rcases lpCondition_origin h5 hr with hr | hr
    · rcases lpActions_origin h4 hr with hr | hr | ⟨n, a, hm, hr⟩
      · rcases lpInitAtoms_origin h3 hr with hr | ⟨p, ts, l, hm, hl, rfl⟩
        · rcases lpSorts_origin h2 hr with hr | ⟨s', p, hs', hi, hp, rfl⟩
          · rcases lpConsts_origin h1 hr with hr | ⟨n, s', l, hm, hl, rfl⟩
            · simp at hr
            · obtain ⟨t, rfl, ht, ha⟩ := W.consts n s' hm
              simp only [lpType, ht, Except.ok.injEq] at hl
              subst hl
              cases hh
              refine .base _ _ (by simp) ⟨.str t, .base _ hm, ?_⟩
              simp [lpInst, ha, nameText]
          · cases hh
            have := hb _ (List.mem_singleton.mpr rfl)
            simp only [LitTrue, List.map_cons, List.map_nil] at this
            obtain ⟨n, hu, he⟩ := (auxDer_base (by simp)).mp this
            exact .base _ _ (by simp) ⟨n, .step _ _ hu hs' hi hp, he⟩
        · have hconst := W.init p ts hm
          have htv : ∃ xs, lpTerms ts = .ok xs ∧ xs.map (lpInst θ) = evalTs (stateInterp X.dom R S) ts (fun _ => "") := by
            clear hl hm hb hh hr haux
            induction ts with
            | nil => exact ⟨[], rfl, by simp [evalTs]⟩
            | cons t ts ih =>
              obtain ⟨n, so, rfl, ha⟩ := hconst t (by simp)
              obtain ⟨xs, e1, e2⟩ := ih fun t ht => hconst t (by simp [ht])
              exact ⟨nameText n :: xs, by simp [lpTerms, lpTerm, e1], by
                simp only [List.map_cons, e2, evalTs, evalT]
                simp [lpInst, ha, stateInterp]⟩
          obtain ⟨xs, e1, e2⟩ := htv
          simp only [lpAtom, e1, Except.ok.injEq] at hl
          subst hl
          cases hh
          rw [e2]
          exact .base _ _ (by simp) (hS.1 p ts hm)
      · exact haux hr
      · obtain ⟨V, hV, hp, hc, he⟩ := W.actions n a hm
        obtain ⟨tc, te⟩ := T.actions n a hm
        have x03 := (x1.trans x2).trans x3
        have x46 := x5.trans x6
        have hmt := valAsg_match hV θ
        have htyp : ∀ {tys}, lpTypes (a.params.map .var) = .ok tys →
            (∀ l ∈ tys, LitTrue R (AuxDer R fin.rules (relaxTruth X R incl S)) θ l) →
            ∀ v ∈ a.params, OfSort X.dom v.sort (valAsg θ v) := by
          intro tys hl hb v hv
          exact relaxTruth_types W hV v (hp v hv) _
            ((lpTypes_vars hV hmt (params_flat hp) hl).mp hb v (List.mem_map.mpr ⟨v, hv, rfl⟩))
        rcases hr with ⟨hg, xs, tys, bd, s1, s2, e1, e2, e3, e4, e5, rfl⟩ | ⟨e, hee, xs, hx, x, hxm, pre, hpre, hrule⟩
        · cases hh
          refine .base _ _ (by simp) ⟨a, valAsg θ, hm, ⟨htyp e2 (fun l hl => hb l (List.mem_append_left _ hl)),
            hcond hV hc tc e3 (x03.trans e4) (e5.trans x46) hmt (fun l hl => hb l (List.mem_append_right _ hl))⟩,
            lpTerms_vars_val hV hp e1 hmt⟩
        · obtain ⟨c, p, ts, hd, bd, s1, s2, rfl, e2, e3, e4, e5, rfl⟩ := hrule
          have happ : ApplicableIn (stateInterp X.dom R S) ⟨a.params, dropNeg incl a.pre, a.effs⟩ (valAsg θ) := by
            unfold EffPre at hpre
            split at hpre
            · obtain ⟨ys, hy, rfl⟩ := hpre
              have := hb _ (List.mem_append_left _ (List.mem_singleton.mpr rfl))
              simp only [LitTrue] at this
              obtain ⟨a', σ', hm', ha', he'⟩ := (auxDer_base (by simp)).mp this
              have haa : a' = a := by
                have := List.inj_on_of_nodup_map T.names hm' hm rfl
                simpa using this
              subst haa
              rw [lpTerms_vars_val hV hp hy hmt] at he'
              have hag : ∀ v ∈ a'.params, valAsg θ v = σ' v := fun v hv => List.map_inj_left.mp he' v hv
              refine ⟨fun v hv => by rw [hag v hv]; exact ha'.1 v hv, ?_⟩
              refine (sat_coinc _ _ _ _ ?_).mpr ha'.2
              intro v hv
              exact hag v (hc.free v (dropNeg_free hv))
            · obtain ⟨tys, b0, s1', s2', f1, f2, f3, f4, rfl⟩ := hpre
              exact ⟨htyp f1 (fun l hl => hb l (List.mem_append_left _ (List.mem_append_left _ hl))),
                hcond hV hc tc f2 (x03.trans f3) (f4.trans x46) hmt
                  (fun l hl => hb l (List.mem_append_left _ (List.mem_append_right _ hl)))⟩
          have e2' := e2
          simp only [lpAtom] at e2
          cases hts : lpTerms ts with
          | error er => simp [hts] at e2
          | ok ys =>
            rw [hts] at e2
            cases p with
            | user p =>
              simp only [Except.ok.injEq] at e2
              subst e2
              cases hh
              obtain ⟨q1, q2, q3⟩ := expanded_causes W hV hx (he e hee) (te e hee) hxm
              have hsat := hcond hV q1.cond q2 e3 (x03.trans e4) (e5.trans x46) hmt
                (fun l hl => hb l (List.mem_append_right _ hl))
              rw [lpTerms_val hV (dom := X.dom) (R := R) (S := S) q1.args hts hmt]
              exact .base _ _ (by simp) (hS.2 n a _ hm happ e hee p _ (q3 R S _ hsat))
            | cmp c =>
              match ys, e2 with
              | [a, b], e2 =>
                simp only [Except.ok.injEq] at e2
                subst e2
                simp at hh
              | [], e2 => simp at e2
              | [_], e2 => simp at e2
              | _ :: _ :: _ :: _, e2 => simp at e2
    · exact haux hr
  · cases hh
    obtain ⟨V, hV, hc⟩ := W.goal
    refine .base _ _ (by simp) ⟨by simp, valAsg θ, ?_⟩
    exact hcond hV hc T.goal h5 (((x1.trans x2).trans x3).trans x4) x6 (valAsg_match hV θ) hb

end Tarski

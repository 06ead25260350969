import Verif.ReachLemmas
/-! The logic program derives everything that holds. -/
namespace Tarski

/-- `M` is closed under the rules of the program. -/
def IsModel (R : CmpRel) (P : List LPRule) (M : LPSym → List String → Prop) : Prop :=
  ∀ r ∈ P, ∀ (θ : String → String) (s : LPSym) (args : List String), r.head = .pred s args →
    (∀ l ∈ r.body, LitTrue R M θ l) → M s (args.map (lpInst θ))

theorem lpDer_isModel (R : CmpRel) (P : List LPRule) : IsModel R P (LPDer R P) := by
  intro r hr θ s args hh hb
  exact .rule r θ s args hr hh (fun s' as h => hb _ h) (fun c a b h => hb _ h)

/-- The valuation of the variables of the program corresponds to the assignment. -/
def AsgMatch (V : Var → Prop) (σ : Asg String) (θ : String → String) : Prop :=
  ∀ v, V v → ∀ x, makeVarName v.sym = .ok x → θ x = σ v

theorem exists_match {X : LPInput} {V : Var → Prop} (hV : VarScope X V) (σ : Asg String) : ∃ θ, AsgMatch V σ θ := by
  classical
  refine ⟨fun x => if h : ∃ v, V v ∧ makeVarName v.sym = .ok x then σ h.choose else "", ?_⟩
  intro v hv x hx
  have h : ∃ v, V v ∧ makeVarName v.sym = .ok x := ⟨v, hv, hx⟩
  have := h.choose_spec
  simp only [h, dif_pos]
  rw [hV.inj _ _ this.1 hv (by rw [this.2, hx])]

/-- Conversely every valuation comes from an assignment. -/
theorem match_of_val {X : LPInput} {V : Var → Prop} (hV : VarScope X V) (θ : String → String) :
    AsgMatch V (fun v => match makeVarName v.sym with | .ok x => θ x | .error _ => "") θ := by
  intro v _ x hx
  simp [hx]

abbrev atomsOf (M : LPSym → List String → Prop) : PState := fun p as => M (.atom p) as

theorem lpTerm_val {X : LPInput} {V : Var → Prop} (hV : VarScope X V) {dom R S} {t : Term} {x} (ht : FlatT V t)
    (h : lpTerm t = .ok x) {σ θ} (hm : AsgMatch V σ θ) : lpInst θ x = evalT (stateInterp dom R S) t σ := by
  cases t with
  | var v =>
    simp only [lpTerm] at h
    obtain ⟨y, hy, ha⟩ := hV.name v ht
    rw [h] at hy
    cases hy
    simp only [lpInst, ha, if_true, evalT]
    exact hm v ht x h
  | const n so =>
    simp only [lpTerm, Except.ok.injEq] at h
    subst h
    simp only [FlatT] at ht
    simp [lpInst, ht, evalT, stateInterp]
  | app f ts => simp [FlatT] at ht
  | ite c a b => simp [FlatT] at ht

theorem lpTerms_val {X : LPInput} {V : Var → Prop} (hV : VarScope X V) {dom R S} : ∀ {ts : List Term} {xs},
    (∀ t ∈ ts, FlatT V t) → lpTerms ts = .ok xs → ∀ {σ θ}, AsgMatch V σ θ →
    xs.map (lpInst θ) = evalTs (stateInterp dom R S) ts σ
  | [], xs, _, h, σ, θ, _ => by simp only [lpTerms, Except.ok.injEq] at h; subst h; simp [evalTs]
  | t :: ts, xs, ht, h, σ, θ, hm => by
    simp only [lpTerms] at h
    cases h1 : lpTerm t with
    | error e => simp [h1] at h
    | ok x =>
      cases h2 : lpTerms ts with
      | error e => simp [h1, h2] at h
      | ok ys =>
        simp only [h1, h2, Except.ok.injEq] at h
        subst h
        rw [List.map_cons, evalTs, lpTerm_val hV (ht t (by simp)) h1 hm,
          lpTerms_val hV (fun t h => ht t (by simp [h])) h2 hm]

theorem lpTerms_vars_val {X : LPInput} {V : Var → Prop} (hV : VarScope X V) {vs : List Var} {xs}
    (hvs : ∀ v ∈ vs, V v) (h : lpTerms (vs.map .var) = .ok xs) {σ θ} (hm : AsgMatch V σ θ) :
    xs.map (lpInst θ) = vs.map σ := by
  rw [lpTerms_val hV (dom := fun _ => .ok []) (R := ⟨fun c a b => match c with
      | .eq => a = b | .ne => a ≠ b | .lt => False | .ge => True | .le => False | .gt => True,
      fun _ _ => Iff.rfl, by intro c a b; cases c <;> simp [Cmp.complement]⟩) (S := fun _ _ => False) ?_ h hm,
    evalTs_eq_map, List.map_map]
  · rfl
  · intro t ht
    obtain ⟨v, hv, rfl⟩ := List.mem_map.mp ht
    exact hvs v hv

/-- The literal of an atom is true iff the atom is. -/
theorem lpAtom_val {X : LPInput} {V : Var → Prop} (hV : VarScope X V) {dom R M} {p : PSym} {ts : List Term} {l}
    (ht : ∀ t ∈ ts, FlatT V t) (h : lpAtom p ts = .ok l) {σ θ} (hm : AsgMatch V σ θ) :
    LitTrue R M θ l ↔ Sat (stateInterp dom R (atomsOf M)) (.atom p ts) σ := by
  simp only [lpAtom] at h
  cases h1 : lpTerms ts with
  | error e => simp [h1] at h
  | ok xs =>
    have hv := lpTerms_val hV (dom := dom) (R := R) (S := atomsOf M) ht h1 hm
    simp only [Sat, ← hv]
    rw [h1] at h
    cases p with
    | user n =>
      simp only [Except.ok.injEq] at h
      subst h
      exact Iff.rfl
    | cmp c =>
      match xs, h with
      | [a, b], h =>
        simp only [Except.ok.injEq] at h
        subst h
        exact Iff.rfl
      | [], h => simp at h
      | [_], h => simp at h
      | _ :: _ :: _ :: _, h => simp at h

/-- The type literals are true if the variables have values of their sorts. -/
theorem lpTypes_vars {X : LPInput} {V : Var → Prop} (hV : VarScope X V) {R M σ θ} (hm : AsgMatch V σ θ) :
    ∀ {ts : List Term} {tys}, (∀ t ∈ ts, ∃ v, t = Term.var v ∧ V v) → lpTypes ts = .ok tys →
    ((∀ l ∈ tys, LitTrue R M θ l) ↔ ∀ v, Term.var v ∈ ts → M (.type v.sort) [σ v])
  | [], tys, _, h => by simp only [lpTypes, Except.ok.injEq] at h; subst h; simp
  | t :: ts, tys, ht, h => by
    obtain ⟨v, rfl, hv⟩ := ht t (by simp)
    simp only [lpTypes, lpType] at h
    obtain ⟨x, hx, ha⟩ := hV.name v hv
    simp only [hx] at h
    cases h2 : lpTypes ts with
    | error e => simp [h2] at h
    | ok ys =>
      simp only [h2, Except.ok.injEq] at h
      subst h
      have ih := lpTypes_vars hV (R := R) (M := M) hm (fun t h => ht t (by simp [h])) h2
      rw [List.forall_mem_cons, ih]
      simp only [LitTrue, List.map_cons, List.map_nil, lpInst, ha, if_true, hm v hv x hx]
      constructor
      · rintro ⟨h1, h2⟩ w hw
        rcases List.mem_cons.mp hw with h | h
        · cases h; exact h1
        · exact h2 w h
      · intro h
        exact ⟨h v (by simp), fun w hw => h w (by simp [hw])⟩

theorem negateLP_val {X : LPInput} {V : Var → Prop} (hV : VarScope X V) {dom R M} {c : Cmp} {ts : List Term} {l}
    (ht : ∀ t ∈ ts, FlatT V t) (h : lpAtom (.cmp c) ts = .ok l) {σ θ} (hm : AsgMatch V σ θ) :
    LitTrue R M θ (negateLP l) ↔ ¬ Sat (stateInterp dom R (atomsOf M)) (.atom (.cmp c) ts) σ := by
  rw [← lpAtom_val hV ht h hm]
  simp only [lpAtom] at h
  cases h1 : lpTerms ts with
  | error e => simp [h1] at h
  | ok xs =>
    rw [h1] at h
    match xs, h with
    | [a, b], h =>
      simp only [Except.ok.injEq] at h
      subst h
      exact R.compl c _ _
    | [], h => simp at h
    | [_], h => simp at h
    | _ :: _ :: _ :: _, h => simp at h

/-! ### What the compilation adds to the program -/

/-- Rules were added, all of them for new auxiliary symbols. -/
def AuxExt (st st' : LPSt) : Prop :=
  st.count ≤ st'.count ∧ ∃ rs, st'.rules = st.rules ++ rs ∧
    ∀ r ∈ rs, ∃ k args, r.head = .pred (.aux k) args ∧ st.count < k ∧ k ≤ st'.count

theorem AuxExt.refl (st : LPSt) : AuxExt st st := ⟨Nat.le_refl _, [], by simp, by simp⟩

theorem AuxExt.trans {a b c : LPSt} (h1 : AuxExt a b) (h2 : AuxExt b c) : AuxExt a c := by
  obtain ⟨l1, r1, e1, q1⟩ := h1
  obtain ⟨l2, r2, e2, q2⟩ := h2
  refine ⟨by omega, r1 ++ r2, by rw [e2, e1, List.append_assoc], ?_⟩
  intro r hr
  rcases List.mem_append.mp hr with hr | hr
  · obtain ⟨k, args, h, h', h''⟩ := q1 r hr; exact ⟨k, args, h, h', by omega⟩
  · obtain ⟨k, args, h, h', h''⟩ := q2 r hr; exact ⟨k, args, h, by omega, h''⟩

theorem AuxExt.sub {a b : LPSt} (h : AuxExt a b) : ∀ r ∈ a.rules, r ∈ b.rules := by
  obtain ⟨_, rs, e, _⟩ := h
  intro r hr
  rw [e]; exact List.mem_append_left _ hr

mutual
theorem lpFormula_ext {ord incl} : ∀ (f : Formula) {st : LPSt} {body st'}, lpFormula ord incl st f = .ok (body, st') →
    AuxExt st st'
  | .top, st, body, st', h => by
    simp only [lpFormula, Except.ok.injEq, Prod.mk.injEq] at h
    obtain ⟨_, rfl⟩ := h; exact .refl _
  | .bot, st, body, st', h => by simp [lpFormula] at h
  | .atom p ts, st, body, st', h => by
    simp only [lpFormula] at h
    cases h1 : lpAtom p ts with
    | error e => simp [h1] at h
    | ok l =>
      simp only [h1, Except.ok.injEq, Prod.mk.injEq] at h
      obtain ⟨_, rfl⟩ := h; exact .refl _
  | .comp k .and fs, st, body, st', h => by
    simp only [lpFormula] at h
    exact lpConj_ext fs h
  | .comp k .or fs, st, body, st', h => by
    simp only [lpFormula] at h
    cases h1 : freeVariables (.comp k .or fs) with
    | error e => simp [h1] at h
    | ok vs =>
      cases h2 : lpTerms ((ord vs).map .var) with
      | error e => simp [h1, h2] at h
      | ok xs =>
        cases h3 : lpTypes ((ord vs).map .var) with
        | error e => simp [h1, h2, h3] at h
        | ok tys =>
          cases h4 : lpDisj ord incl ⟨st.count + 1, st.rules⟩ fs with
          | error e => simp [h1, h2, h3, h4] at h
          | ok p =>
            obtain ⟨bodies, st1⟩ := p
            simp only [h1, h2, h3, h4, Except.ok.injEq, Prod.mk.injEq] at h
            obtain ⟨_, rfl⟩ := h
            obtain ⟨l, rs, e, q⟩ := lpDisj_ext fs h4
            simp only at l e q
            refine ⟨by simp only; omega, rs ++ bodies.map (fun b => ⟨.pred (.aux (st.count + 1)) xs, b ++ tys⟩), by simp [e], ?_⟩
            intro r hr
            rcases List.mem_append.mp hr with hr | hr
            · obtain ⟨k, args, h, h', h''⟩ := q r hr; exact ⟨k, args, h, by omega, h''⟩
            · obtain ⟨b, _, rfl⟩ := List.mem_map.mp hr
              exact ⟨_, _, rfl, by omega, by simp only; omega⟩
  | .comp k .not fs, st, body, st', h => by
    simp only [lpFormula] at h
    split at h
    · match fs, h with
      | [.atom p ts], h =>
        simp only at h
        cases h1 : lpAtom p ts with
        | error e => simp [h1] at h
        | ok l =>
          simp only [h1, Except.ok.injEq, Prod.mk.injEq] at h
          obtain ⟨_, rfl⟩ := h; exact .refl _
      | [], h => simp at h
      | [.top], h => simp at h
      | [.bot], h => simp at h
      | [.comp _ _ _], h => simp at h
      | [.quant _ _ _], h => simp at h
      | _ :: _ :: _, h => simp at h
    · simp only [Except.ok.injEq, Prod.mk.injEq] at h
      obtain ⟨_, rfl⟩ := h; exact .refl _
  | .quant .exists vs f, st, body, st', h => by
    simp only [lpFormula] at h
    cases h1 : lpTypes vs with
    | error e => simp [h1] at h
    | ok tys =>
      cases h2 : lpFormula ord incl ⟨st.count + 1, st.rules⟩ f with
      | error e => simp [h1, h2] at h
      | ok p =>
        obtain ⟨b, st1⟩ := p
        simp only [h1, h2, Except.ok.injEq, Prod.mk.injEq] at h
        obtain ⟨_, rfl⟩ := h
        obtain ⟨l, rs, e, q⟩ := lpFormula_ext f h2
        simp only at l e q
        refine ⟨by simp only [LPSt.add]; omega, rs ++ [⟨.pred (.aux (st.count + 1)) [], b ++ tys⟩], by simp [LPSt.add, e], ?_⟩
        intro r hr
        rcases List.mem_append.mp hr with hr | hr
        · obtain ⟨k, args, h, h', h''⟩ := q r hr; exact ⟨k, args, h, by omega, h''⟩
        · simp only [List.mem_singleton] at hr
          subst hr
          exact ⟨_, _, rfl, by omega, by simp only [LPSt.add]; omega⟩
  | .quant .forall vs f, st, body, st', h => by simp [lpFormula] at h
theorem lpConj_ext {ord incl} : ∀ (fs : List Formula) {st : LPSt} {body st'}, lpConj ord incl st fs = .ok (body, st') →
    AuxExt st st'
  | [], st, body, st', h => by
    simp only [lpConj, Except.ok.injEq, Prod.mk.injEq] at h
    obtain ⟨_, rfl⟩ := h; exact .refl _
  | f :: fs, st, body, st', h => by
    simp only [lpConj] at h
    cases h1 : lpFormula ord incl st f with
    | error e => simp [h1] at h
    | ok p =>
      obtain ⟨b, st1⟩ := p
      cases h2 : lpConj ord incl st1 fs with
      | error e => simp [h1, h2] at h
      | ok p =>
        obtain ⟨bs, st2⟩ := p
        simp only [h1, h2, Except.ok.injEq, Prod.mk.injEq] at h
        obtain ⟨_, rfl⟩ := h
        exact (lpFormula_ext f h1).trans (lpConj_ext fs h2)
theorem lpDisj_ext {ord incl} : ∀ (fs : List Formula) {st : LPSt} {bodies st'}, lpDisj ord incl st fs = .ok (bodies, st') →
    AuxExt st st'
  | [], st, body, st', h => by
    simp only [lpDisj, Except.ok.injEq, Prod.mk.injEq] at h
    obtain ⟨_, rfl⟩ := h; exact .refl _
  | f :: fs, st, body, st', h => by
    simp only [lpDisj] at h
    cases h1 : lpFormula ord incl st f with
    | error e => simp [h1] at h
    | ok p =>
      obtain ⟨b, st1⟩ := p
      cases h2 : lpDisj ord incl st1 fs with
      | error e => simp [h1, h2] at h
      | ok p =>
        obtain ⟨bs, st2⟩ := p
        simp only [h1, h2, Except.ok.injEq, Prod.mk.injEq] at h
        obtain ⟨_, rfl⟩ := h
        exact (lpFormula_ext f h1).trans (lpDisj_ext fs h2)
end

/-- `free_variables` computes the free variables of a flat formula. -/
theorem freeVariables_flat {V : Var → Prop} {f : Formula} (hf : FlatF V f) (hr : NoRebind f) {vs}
    (h : freeVariables f = .ok vs) : ∀ v, v ∈ vs ↔ FreeF v f := by
  obtain ⟨s', h1, _, _, _, h2⟩ := fvF_spec f (flatF_noIte hf) hr ⟨[], []⟩ (by simp) (by simp) (by simp) (flatF_varBinders hf)
  simp only [freeVariables, h1, Except.ok.injEq] at h
  subst h
  intro v
  rw [h2]; simp

theorem flatTs_free {V} {v : Var} : ∀ {ts : List Term}, (∀ t ∈ ts, FlatT V t) → (FreeTs v ts ↔ Term.var v ∈ ts)
  | [], _ => by simp [FreeTs]
  | t :: ts, h => by
    have ih := flatTs_free (v := v) (ts := ts) fun t ht => h t (by simp [ht])
    have ht := h t (by simp)
    simp only [FreeTs, ih, List.mem_cons]
    cases t with
    | var w =>
      have : FreeT v (.var w) ↔ Term.var v = Term.var w := by
        simp only [FreeT]; exact ⟨fun h => by rw [h], fun h => by cases h; rfl⟩
      rw [this]
    | const n so => simp [FreeT]
    | app f ts => simp [FlatT] at ht
    | ite c a b => simp [FlatT] at ht

mutual
theorem flat_free_V {V} {v : Var} : ∀ {f : Formula}, FlatF V f → FreeF v f → V v
  | .top, _, h => by simp [FreeF] at h
  | .bot, _, h => by simp [FreeF] at h
  | .atom p ts, hf, h => hf _ ((flatTs_free hf).mp h)
  | .comp k c fs, hf, h => flat_free_Vs hf h
  | .quant q vs f, hf, h => flat_free_V hf.2 h.1
theorem flat_free_Vs {V} {v : Var} : ∀ {fs : List Formula}, FlatFs V fs → FreeFs v fs → V v
  | [], _, h => by simp [FreeFs] at h
  | f :: fs, hf, h => h.elim (fun h => flat_free_V hf.1 h) (fun h => flat_free_Vs hf.2 h)
end

/-! ### Conditions -/

theorem flat_evalT_state {V : Var → Prop} {dom : Domains} {R : CmpRel} {S' : PState} {t : Term} (h : FlatT V t) (S : PState) {σ} :
    evalT (stateInterp dom R S) t σ = evalT (stateInterp dom R S') t σ := by
  cases t with
  | var v => simp [evalT]
  | const n so => simp [evalT, stateInterp]
  | app f ts => simp [FlatT] at h
  | ite c a b => simp [FlatT] at h

theorem flat_evalTs_state {V : Var → Prop} {dom : Domains} {R : CmpRel} {S' : PState} {ts : List Term}
    (h : ∀ t ∈ ts, FlatT V t) (S : PState) {σ} :
    evalTs (stateInterp dom R S) ts σ = evalTs (stateInterp dom R S') ts σ := by
  rw [evalTs_eq_map, evalTs_eq_map]
  exact List.map_congr_left fun t ht => flat_evalT_state (h t ht) S

theorem atom_sat_mono {V : Var → Prop} {dom : Domains} {R : CmpRel} {S S' : PState} (hS : ∀ p as, S p as → S' p as) {p : PSym}
    {ts : List Term} (h : ∀ t ∈ ts, FlatT V t) (σ) (hp : (stateInterp dom R S).pred p (evalTs (stateInterp dom R S) ts σ)) :
    (stateInterp dom R S').pred p (evalTs (stateInterp dom R S') ts σ) := by
  rw [flat_evalTs_state h S (S' := S')] at hp
  cases p with
  | user n => exact hS _ _ hp
  | cmp c => exact hp

theorem quantBlock_forall_mono {I J : Interp String} (hs : ∀ s d, J.sort s d ↔ I.sort s d) {P Q : Asg String → Prop}
    (h : ∀ τ, P τ → Q τ) : ∀ (vs : List Term) σ, quantBlock I .forall vs P σ → quantBlock J .forall vs Q σ
  | [], σ, hp => h σ hp
  | .var v :: vs, σ, hp => by
    simp only [quantBlock] at hp ⊢
    exact fun d hd => quantBlock_forall_mono hs h vs _ (hp d ((hs _ _).mp hd))
  | .const _ _ :: vs, σ, hp => by
    simp only [quantBlock] at hp ⊢; exact quantBlock_forall_mono hs h vs _ hp
  | .app _ _ :: vs, σ, hp => by
    simp only [quantBlock] at hp ⊢; exact quantBlock_forall_mono hs h vs _ hp
  | .ite _ _ _ :: vs, σ, hp => by
    simp only [quantBlock] at hp ⊢; exact quantBlock_forall_mono hs h vs _ hp

mutual
theorem dropNeg_sat_mono {V : Var → Prop} {dom : Domains} {R : CmpRel} {S S' : PState} {incl : Bool} (hS : ∀ p as, S p as → S' p as) :
    ∀ (f : Formula), FlatF V f → ∀ σ, Sat (stateInterp dom R S) f σ → Sat (stateInterp dom R S') (dropNeg incl f) σ
  | .top, _, σ, _ => by simp [dropNeg, Sat]
  | .bot, _, σ, h => by simp [Sat] at h
  | .atom p ts, hf, σ, h => by
    simp only [dropNeg, Sat] at h ⊢
    exact atom_sat_mono hS hf σ h
  | .comp k .and fs, hf, σ, h => by
    simp only [dropNeg, Sat] at h ⊢
    exact (dropNegs_sat_mono hS fs hf σ).1 h
  | .comp k .or fs, hf, σ, h => by
    simp only [dropNeg, Sat] at h ⊢
    exact (dropNegs_sat_mono hS fs hf σ).2 h
  | .comp k .not fs, hf, σ, h => by
    simp only [dropNeg]
    split
    · split
      · rename_i c ts
        simp only [Sat, SatAll, and_true] at h ⊢
        simp only [FlatF, FlatFs, and_true] at hf
        rwa [flat_evalTs_state hf S] at h
      · simp [Sat]
    · simp [Sat]
  | .quant .exists vs f, hf, σ, h => by
    simp only [dropNeg, Sat] at h ⊢
    rw [quantBlock_exists'] at h ⊢
    obtain ⟨τ, h1, h2, h3⟩ := h
    exact ⟨τ, h1, h2, dropNeg_sat_mono hS f hf.2 τ h3⟩
  | .quant .forall vs f, hf, σ, h => by
    simp only [dropNeg, Sat] at h ⊢
    exact quantBlock_forall_mono (I := stateInterp dom R S) (J := stateInterp dom R S') (Q := Sat _ (dropNeg incl f)) (fun s d => Iff.rfl) (fun τ h => dropNeg_sat_mono hS f hf.2 τ h) vs σ h
theorem dropNegs_sat_mono {V : Var → Prop} {dom : Domains} {R : CmpRel} {S S' : PState} {incl : Bool} (hS : ∀ p as, S p as → S' p as) :
    ∀ (fs : List Formula), FlatFs V fs → ∀ σ,
      (SatAll (stateInterp dom R S) fs σ → SatAll (stateInterp dom R S') (dropNegs incl fs) σ) ∧
      (SatAny (stateInterp dom R S) fs σ → SatAny (stateInterp dom R S') (dropNegs incl fs) σ)
  | [], _, σ => by simp [SatAll, SatAny, dropNegs]
  | f :: fs, hf, σ => by
    have h1 := dropNeg_sat_mono (incl := incl) (R := R) (dom := dom) hS f hf.1 σ
    have h2 := dropNegs_sat_mono (incl := incl) (R := R) (dom := dom) hS fs hf.2 σ
    simp only [SatAll, SatAny, dropNegs]
    exact ⟨fun h => ⟨h1 h.1, h2.1 h.2⟩, fun h => h.elim (fun h => .inl (h1 h)) (fun h => .inr (h2.2 h))⟩
end

/-- What a model of the program must know about sorts. -/
def TypesIn (dom : Domains) (V : Var → Prop) (M : LPSym → List String → Prop) : Prop :=
  ∀ v, V v → ∀ d, OfSort dom v.sort d → M (.type v.sort) [d]

mutual
/-- The body made of a formula is true if the formula, without negations, is true. -/
theorem lpFormula_complete {X : LPInput} {V : Var → Prop} (hV : VarScope X V) {dom : Domains} {R : CmpRel} {P : List LPRule}
    {M : LPSym → List String → Prop} (hM : IsModel R P M) (hT : TypesIn dom V M) {ord : List Var → List Var} {incl : Bool}
    (hord : ∀ l v, v ∈ ord l ↔ v ∈ l) : ∀ (f : Formula) {st : LPSt} {body st'},
    lpFormula ord incl st f = .ok (body, st') → (∀ r ∈ st'.rules, r ∈ P) → FlatF V f → NoRebind f →
    ∀ σ θ, AsgMatch V σ θ → (∀ v, FreeF v f → OfSort dom v.sort (σ v)) →
    Sat (stateInterp dom R (atomsOf M)) (dropNeg incl f) σ → ∀ l ∈ body, LitTrue R M θ l
  | .top, st, body, st', h, _, _, _, σ, θ, _, _, _ => by
    simp only [lpFormula, Except.ok.injEq, Prod.mk.injEq] at h
    obtain ⟨rfl, _⟩ := h; simp
  | .bot, st, body, st', h, _, _, _, σ, θ, _, _, _ => by simp [lpFormula] at h
  | .atom p ts, st, body, st', h, _, hf, _, σ, θ, hm, _, hs => by
    simp only [lpFormula] at h
    cases h1 : lpAtom p ts with
    | error e => simp [h1] at h
    | ok l =>
      simp only [h1, Except.ok.injEq, Prod.mk.injEq] at h
      obtain ⟨rfl, _⟩ := h
      simp only [List.mem_singleton, forall_eq]
      exact (lpAtom_val hV hf h1 hm).mpr hs
  | .comp k .and fs, st, body, st', h, hP, hf, hr, σ, θ, hm, ht, hs => by
    simp only [lpFormula] at h
    simp only [dropNeg, Sat] at hs
    exact lpConj_complete hV hM hT hord fs h hP hf hr σ θ hm ht hs
  | .comp k .or fs, st, body, st', h, hP, hf, hr, σ, θ, hm, ht, hs => by
    simp only [lpFormula] at h
    simp only [dropNeg, Sat] at hs
    cases h1 : freeVariables (.comp k .or fs) with
    | error e => simp [h1] at h
    | ok vs =>
      cases h2 : lpTerms ((ord vs).map .var) with
      | error e => simp [h1, h2] at h
      | ok xs =>
        cases h3 : lpTypes ((ord vs).map .var) with
        | error e => simp [h1, h2, h3] at h
        | ok tys =>
          cases h4 : lpDisj ord incl ⟨st.count + 1, st.rules⟩ fs with
          | error e => simp [h1, h2, h3, h4] at h
          | ok p =>
            obtain ⟨bodies, st1⟩ := p
            simp only [h1, h2, h3, h4, Except.ok.injEq, Prod.mk.injEq] at h
            obtain ⟨rfl, rfl⟩ := h
            have hfv := freeVariables_flat hf hr h1
            have hvV : ∀ t ∈ (ord vs).map Term.var, ∃ v, t = Term.var v ∧ V v := by
              intro t ht
              obtain ⟨v, hv, rfl⟩ := List.mem_map.mp ht
              exact ⟨v, rfl, flat_free_V hf ((hfv v).mp ((hord vs v).mp hv))⟩
            obtain ⟨b, hb, hbt⟩ := lpDisj_complete hV hM hT hord fs h4 (fun r hr => hP r (List.mem_append_left _ hr)) hf hr σ θ
              hm ht hs
            simp only [List.mem_singleton, forall_eq, LitTrue]
            refine hM ⟨.pred (.aux (st.count + 1)) xs, b ++ tys⟩
              (hP _ (List.mem_append_right _ (List.mem_map.mpr ⟨b, hb, rfl⟩))) θ _ _ rfl ?_
            intro l hl
            rcases List.mem_append.mp hl with hl | hl
            · exact hbt l hl
            · refine (lpTypes_vars hV (R := R) (M := M) hm hvV h3).mpr ?_ l hl
              intro v hv
              obtain ⟨w, hw, he⟩ := List.mem_map.mp hv
              cases he
              have hvf := (hfv v).mp ((hord vs v).mp hw)
              exact hT v (flat_free_V hf hvf) _ (ht v hvf)
  | .comp k .not fs, st, body, st', h, _, hf, _, σ, θ, hm, _, hs => by
    simp only [lpFormula] at h
    split at h
    · rename_i hi
      match fs, h with
      | [.atom p ts], h =>
        simp only at h
        cases h1 : lpAtom p ts with
        | error e => simp [h1] at h
        | ok l =>
          simp only [h1, Except.ok.injEq, Prod.mk.injEq] at h
          obtain ⟨rfl, _⟩ := h
          simp only [List.mem_singleton, forall_eq]
          simp only [FlatF, FlatFs, and_true] at hf
          cases p with
          | user n =>
            simp only [lpAtom] at h1
            cases h2 : lpTerms ts with
            | error e => simp [h2] at h1
            | ok xs =>
              simp only [h2, Except.ok.injEq] at h1
              subst h1
              simp [negateLP, LitTrue]
          | cmp c =>
            rw [negateLP_val hV hf h1 hm (dom := dom)]
            simpa [dropNeg, hi, Sat, SatAll] using hs
      | [], h => simp at h
      | [.top], h => simp at h
      | [.bot], h => simp at h
      | [.comp _ _ _], h => simp at h
      | [.quant _ _ _], h => simp at h
      | _ :: _ :: _, h => simp at h
    · simp only [Except.ok.injEq, Prod.mk.injEq] at h
      obtain ⟨rfl, _⟩ := h
      simp [LitTrue]
  | .quant .exists vs f, st, body, st', h, hP, hf, hr, σ, θ, hm, ht, hs => by
    simp only [lpFormula] at h
    simp only [dropNeg, Sat] at hs
    cases h1 : lpTypes vs with
    | error e => simp [h1] at h
    | ok tys =>
      cases h2 : lpFormula ord incl ⟨st.count + 1, st.rules⟩ f with
      | error e => simp [h1, h2] at h
      | ok p =>
        obtain ⟨b, st1⟩ := p
        simp only [h1, h2, Except.ok.injEq, Prod.mk.injEq] at h
        obtain ⟨rfl, rfl⟩ := h
        rw [quantBlock_exists'] at hs
        obtain ⟨τ, s1, s2, s3⟩ := hs
        obtain ⟨θ', hm'⟩ := exists_match hV τ
        have hbt := lpFormula_complete hV hM hT hord f h2 (fun r hr => hP r (List.mem_append_left _ hr)) hf.2 hr.2.2 τ θ' hm'
          (by
            intro v hv
            by_cases hm : Term.var v ∈ vs
            · exact s1 v hm
            · rw [s2 v hm]; exact ht v ⟨hv, hm⟩) s3
        simp only [List.mem_singleton, forall_eq, LitTrue]
        have := hM ⟨.pred (.aux (st.count + 1)) [], b ++ tys⟩ (hP _ (List.mem_append_right _ (by simp))) θ' _ _ rfl (by
          intro l hl
          rcases List.mem_append.mp hl with hl | hl
          · exact hbt l hl
          · refine (lpTypes_vars hV (R := R) (M := M) hm' hf.1 h1).mpr ?_ l hl
            intro v hv
            obtain ⟨w, he, hw⟩ := hf.1 _ hv
            cases he
            exact hT v hw _ (s1 v hv))
        simpa using this
  | .quant .forall vs f, st, body, st', h, _, _, _, σ, θ, _, _, _ => by simp [lpFormula] at h
theorem lpConj_complete {X : LPInput} {V : Var → Prop} (hV : VarScope X V) {dom : Domains} {R : CmpRel} {P : List LPRule}
    {M : LPSym → List String → Prop} (hM : IsModel R P M) (hT : TypesIn dom V M) {ord : List Var → List Var} {incl : Bool}
    (hord : ∀ l v, v ∈ ord l ↔ v ∈ l) : ∀ (fs : List Formula) {st : LPSt} {body st'},
    lpConj ord incl st fs = .ok (body, st') → (∀ r ∈ st'.rules, r ∈ P) → FlatFs V fs → NoRebinds fs →
    ∀ σ θ, AsgMatch V σ θ → (∀ v, FreeFs v fs → OfSort dom v.sort (σ v)) →
    SatAll (stateInterp dom R (atomsOf M)) (dropNegs incl fs) σ → ∀ l ∈ body, LitTrue R M θ l
  | [], st, body, st', h, _, _, _, σ, θ, _, _, _ => by
    simp only [lpConj, Except.ok.injEq, Prod.mk.injEq] at h
    obtain ⟨rfl, _⟩ := h; simp
  | f :: fs, st, body, st', h, hP, hf, hr, σ, θ, hm, ht, hs => by
    simp only [lpConj] at h
    cases h1 : lpFormula ord incl st f with
    | error e => simp [h1] at h
    | ok p =>
      obtain ⟨b, st1⟩ := p
      cases h2 : lpConj ord incl st1 fs with
      | error e => simp [h1, h2] at h
      | ok p =>
        obtain ⟨bs, st2⟩ := p
        simp only [h1, h2, Except.ok.injEq, Prod.mk.injEq] at h
        obtain ⟨rfl, rfl⟩ := h
        simp only [dropNegs, SatAll] at hs
        intro l hl
        rcases List.mem_append.mp hl with hl | hl
        · exact lpFormula_complete hV hM hT hord f h1 (fun r hr => hP r ((lpConj_ext fs h2).sub r hr)) hf.1 hr.1 σ θ hm
            (fun v hv => ht v (Or.inl hv)) hs.1 l hl
        · exact lpConj_complete hV hM hT hord fs h2 hP hf.2 hr.2 σ θ hm (fun v hv => ht v (Or.inr hv)) hs.2 l hl
theorem lpDisj_complete {X : LPInput} {V : Var → Prop} (hV : VarScope X V) {dom : Domains} {R : CmpRel} {P : List LPRule}
    {M : LPSym → List String → Prop} (hM : IsModel R P M) (hT : TypesIn dom V M) {ord : List Var → List Var} {incl : Bool}
    (hord : ∀ l v, v ∈ ord l ↔ v ∈ l) : ∀ (fs : List Formula) {st : LPSt} {bodies st'},
    lpDisj ord incl st fs = .ok (bodies, st') → (∀ r ∈ st'.rules, r ∈ P) → FlatFs V fs → NoRebinds fs →
    ∀ σ θ, AsgMatch V σ θ → (∀ v, FreeFs v fs → OfSort dom v.sort (σ v)) →
    SatAny (stateInterp dom R (atomsOf M)) (dropNegs incl fs) σ → ∃ b ∈ bodies, ∀ l ∈ b, LitTrue R M θ l
  | [], st, body, st', h, _, _, _, σ, θ, _, _, hs => by simp [dropNegs, SatAny] at hs
  | f :: fs, st, body, st', h, hP, hf, hr, σ, θ, hm, ht, hs => by
    simp only [lpDisj] at h
    cases h1 : lpFormula ord incl st f with
    | error e => simp [h1] at h
    | ok p =>
      obtain ⟨b, st1⟩ := p
      cases h2 : lpDisj ord incl st1 fs with
      | error e => simp [h1, h2] at h
      | ok p =>
        obtain ⟨bs, st2⟩ := p
        simp only [h1, h2, Except.ok.injEq, Prod.mk.injEq] at h
        obtain ⟨rfl, rfl⟩ := h
        simp only [dropNegs, SatAny] at hs
        rcases hs with hs | hs
        · exact ⟨b, by simp, lpFormula_complete hV hM hT hord f h1 (fun r hr => hP r ((lpDisj_ext fs h2).sub r hr)) hf.1 hr.1
            σ θ hm (fun v hv => ht v (Or.inl hv)) hs⟩
        · obtain ⟨b', hb', hx⟩ := lpDisj_complete hV hM hT hord fs h2 hP hf.2 hr.2 σ θ hm (fun v hv => ht v (Or.inr hv)) hs
          exact ⟨b', by simp [hb'], hx⟩
end

theorem stateInterp_domOK {dom : Domains} (hc : ConstDoms dom) (R : CmpRel) (S : PState) : DomOK (stateInterp dom R S) dom := by
  intro s cs hs
  refine ⟨hc s cs hs, fun d => ?_⟩
  constructor
  · rintro ⟨cs', n, so, h1, h2, h3⟩
    rw [hs] at h1
    cases h1
    exact ⟨n, so, h2, h3⟩
  · rintro ⟨n, so, h2, h3⟩
    exact ⟨cs, n, so, hs, h2, h3⟩

end Tarski

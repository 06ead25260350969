import Verif.Props.Prenex
/-! C08 (continued): prenex transformation where one name is quantified on both sides. -/
namespace Tarski

/-! ### Specification -/

/-- The variable with an apostrophe after its name. -/
def primeVar (v : Var) : Var := ⟨v.sym ++ "'", v.sort⟩

/-- A formula `∃ vs. A` and a formula `∀ ws. B`, with parts `A` and `B` without quantifiers, where the same variables may be quantified on both sides: the variables
of only one side are not free on the other, and the names of the shared ones, with an apostrophe, are new. -/
structure ClashSafe (vs : List Term) (A : Formula) (ws : List Term) (B : Formula) : Prop where
  qfreeA : QFree A
  qfreeB : QFree B
  safeA : PrenexSafe A
  safeB : PrenexSafe B
  varsA : VarBindersF A
  vars : ∀ t ∈ vs, ∃ v, t = Term.var v
  inner : ∀ v, BoundF v A → Term.var v ∉ vs ∧ ∀ u, Term.var u ∈ vs → Term.var u ∈ ws → v ≠ primeVar u
  onlyB : ∀ v, Term.var v ∈ ws → Term.var v ∉ vs → ¬ FreeF v A
  onlyA : ∀ v, Term.var v ∈ vs → Term.var v ∉ ws → ¬ FreeF v B
  fresh : ∀ v, Term.var v ∈ vs → Term.var v ∈ ws →
    Term.var (primeVar v) ∉ vs ∧ Term.var (primeVar v) ∉ ws ∧ ¬ FreeF (primeVar v) A ∧ ¬ FreeF (primeVar v) B

/-! ### Proof -/

section
variable {vs ws : List Term} {A B : Formula}

/-- The renaming of the variables. -/
def rnv (vs ws : List Term) (v : Var) : Var := if Term.var v ∈ vs ∧ Term.var v ∈ ws then primeVar v else v

theorem primeVar_inj {u v : Var} (h : primeVar u = primeVar v) : u = v := by
  cases u; cases v
  simp only [primeVar, Var.mk.injEq] at h
  obtain ⟨h1, rfl⟩ := h
  have h2 := congrArg String.toList h1
  simp only [String.toList_append] at h2
  rw [Var.mk.injEq]
  exact ⟨String.toList_injective (List.append_cancel_right h2), rfl⟩

theorem nest_mem {kv : Term × Term} : kv ∈ (nestVars vs ws).2 ↔ kv.1 ∈ vs ∧ kv.1 ∈ ws ∧ kv.2 = primed kv.1 := by
  simp only [nestVars, List.mem_filterMap]
  constructor
  · rintro ⟨y, hy, h⟩
    split at h
    · rename_i hw
      cases h
      exact ⟨hy, hw, rfl⟩
    · cases h
  · rintro ⟨h1, h2, h3⟩
    exact ⟨kv.1, h1, by rw [if_pos h2, ← h3]⟩

theorem nest_visit (v : Var) : Subst.visit (nestVars vs ws).2 (.var v) = .var (rnv vs ws v) := by
  by_cases h : Term.var v ∈ vs ∧ Term.var v ∈ ws
  · rw [rnv, if_pos h]
    cases hg : Subst.get? (nestVars vs ws).2 (.var v) with
    | none => exact absurd rfl (get?_eq_none.1 hg (.var v, primed (.var v)) (nest_mem.2 ⟨h.1, h.2, rfl⟩))
    | some u =>
      have := (nest_mem.1 (get?_eq_some hg)).2.2
      simp only [Subst.visit, hg, Option.getD_some]
      exact this
  · rw [rnv, if_neg h]
    have hg : Subst.get? (nestVars vs ws).2 (.var v) = none := by
      rw [get?_eq_none]
      intro kv hkv e
      obtain ⟨h1, h2, -⟩ := nest_mem.1 hkv
      rw [e] at h1 h2
      exact h ⟨h1, h2⟩
    simp only [Subst.visit, hg, Option.getD_none]

theorem nest_keys (S : ClashSafe vs A ws B) : KeysVar (nestVars vs ws).2 := fun kv h => S.vars _ (nest_mem.1 h).1

theorem nest_fresh (S : ClashSafe vs A ws B) {v : Var} (h : BoundF v A) : Fresh (nestVars vs ws).2 v := by
  intro kv hkv
  obtain ⟨h1, h2, h3⟩ := nest_mem.1 hkv
  obtain ⟨k1, k2⟩ := S.inner v h
  obtain ⟨u, hu⟩ := S.vars _ h1
  refine ⟨fun e => k1 (e ▸ h1), ?_⟩
  rw [h3, hu]
  rw [hu] at h1 h2
  intro e
  exact k2 u h1 h2 (Eq.symm e)

/-- The renamed formula has the meaning of the formula with the values of the renamed variables. -/
theorem nestSub_sem (S : ClashSafe vs A ws B) {D} (I : Interp D) (σ : Asg D) :
    Sat I (nestSub (nestVars vs ws).2 A) σ ↔ Sat I A (fun v => σ (rnv vs ws v)) := by
  have hu : updAsg I (nestVars vs ws).2 σ = fun v => σ (rnv vs ws v) := by
    funext v
    simp only [updAsg, nest_visit, evalT]
  unfold nestSub
  split
  · rename_i he
    rw [← hu]
    have : updAsg I (nestVars vs ws).2 σ = σ := by
      rw [List.isEmpty_iff.1 he]
      funext v
      simp [updAsg, Subst.visit, Subst.get?, evalT]
    rw [this]
  · rw [subF_sem I (nest_keys S) A S.varsA (fun v hv => nest_fresh S hv) σ, hu]

/-- Renaming does not identify a quantified variable with another one. -/
theorem rnv_inj (S : ClashSafe vs A ws B) {u v : Var} (hu : FreeF u A) (hv : Term.var v ∈ vs) (h : rnv vs ws u = rnv vs ws v) : u = v := by
  unfold rnv at h
  split at h <;> split at h
  · exact primeVar_inj h
  · rename_i h1 h2
    subst h
    exact absurd hv (S.fresh u h1.1 h1.2).1
  · rename_i h1 h2
    subst h
    exact absurd hu (S.fresh v h2.1 h2.2).2.2.1
  · exact h

theorem nest_block (S : ClashSafe vs A ws B) {D} (I : Interp D) : ∀ (l : List Term), (∀ t ∈ l, t ∈ vs) → ∀ σ τ : Asg D,
    (∀ v, FreeF v A → Term.var v ∉ l → σ v = τ (rnv vs ws v)) →
    (quantBlock I .exists l (Sat I A) σ ↔
      quantBlock I .exists (l.map (fun y => if y ∈ ws then primed y else y)) (Sat I (nestSub (nestVars vs ws).2 A)) τ)
  | [], _, σ, τ, h => by
    simp only [quantBlock, List.map_nil, nestSub_sem S]
    exact sat_coinc I A _ _ (fun v hv => h v hv (by simp))
  | t :: l, hl, σ, τ, h => by
    obtain ⟨v, rfl⟩ := S.vars t (hl t (by simp))
    have hv : Term.var v ∈ vs := hl _ (by simp)
    have e : (if Term.var v ∈ ws then primed (.var v) else .var v) = Term.var (rnv vs ws v) := by
      by_cases hw : Term.var v ∈ ws
      · rw [if_pos hw, rnv, if_pos ⟨hv, hw⟩]; rfl
      · rw [if_neg hw, rnv, if_neg (fun h => hw h.2)]
    have es : (rnv vs ws v).sort = v.sort := by
      unfold rnv
      split <;> rfl
    simp only [List.map_cons, e, quantBlock, es]
    refine exists_congr fun d => and_congr_right fun _ => ?_
    refine nest_block S I l (fun t ht => hl t (by simp [ht])) _ _ fun u hu hul => ?_
    by_cases huv : u = v
    · subst huv
      simp [Asg.set]
    · have hne : rnv vs ws u ≠ rnv vs ws v := fun h => huv (rnv_inj S hu hv h)
      simp only [Asg.set, if_neg huv, if_neg hne]
      exact h u hu (by simp [huv, hul])

/-- Pulling both quantifiers out after renaming keeps the meaning. -/
theorem nest_sem (S : ClashSafe vs A ws B) (c : Conn) (hc : c ≠ .not) {D} (I : Interp D) (hI : NonemptySorts I) (σ : Asg D) :
    quantBlock I .exists (nestVars vs ws).1 (quantBlock I .forall ws (fun τ => sat2 c (Sat I (nestSub (nestVars vs ws).2 A) τ) (Sat I B τ))) σ ↔
      sat2 c (quantBlock I .exists vs (Sat I A) σ) (quantBlock I .forall ws (Sat I B) σ) := by
  have hA : Indep ws (Sat I (nestSub (nestVars vs ws).2 A)) := by
    intro w hw τ d
    rw [nestSub_sem S, nestSub_sem S]
    refine sat_coinc I A _ _ fun v hv => ?_
    have : rnv vs ws v ≠ w := by
      unfold rnv
      split
      · rename_i h
        rintro rfl
        exact (S.fresh v h.1 h.2).2.1 hw
      · rename_i h
        rintro rfl
        exact S.onlyB v hw (fun h' => h ⟨h', hw⟩) hv
    simp only [Asg.set, if_neg this]
  have hB : Indep (nestVars vs ws).1 (quantBlock I .forall ws (Sat I B)) := by
    have h := indep_sat I (.quant .forall ws B) (nestVars vs ws).1 (fun v hv hf => by
      simp only [nestVars, List.mem_map] at hv
      obtain ⟨y, hy, e⟩ := hv
      split at e
      · rename_i hw
        obtain ⟨u, rfl⟩ := S.vars y hy
        have : primeVar u = v := by simpa [primed, primeVar] using e
        subst this
        exact (S.fresh u hy hw).2.2.2 hf.1
      · rename_i hw
        subst e
        exact S.onlyA v hy hw hf.1)
    simpa only [Sat] using h
  have h1 : ∀ τ, quantBlock I .forall ws (fun τ => sat2 c (Sat I (nestSub (nestVars vs ws).2 A) τ) (Sat I B τ)) τ ↔
      sat2 c (Sat I (nestSub (nestVars vs ws).2 A) τ) (quantBlock I .forall ws (Sat I B) τ) := fun τ => qb_mix I hI .forall c _ _ ws hA hc τ
  rw [quantBlock_congr I .exists _ h1 σ, qb_mix_right I hI .exists c _ _ _ hB hc σ]
  have h2 := nest_block S I vs (fun _ h => h) σ σ (fun v _ hv => by rw [rnv, if_neg (fun h => hv h.1)])
  have h3 : (nestVars vs ws).1 = vs.map (fun y => if y ∈ ws then primed y else y) := rfl
  rw [h3, ← h2]

theorem px_qfree {f : Formula} (hf : PrenexSafe f) (hq : QFree f) (n : Nat) (hn : psize f ≤ n) : pxFuel n f = .ok f := by
  obtain ⟨g, h1, h2, h3⟩ := px_safe hf n hn
  have hp : prefixOf f = none := by
    have : ∀ {f}, QFree f → prefixOf f = none := by
      intro f hq
      induction hq with
      | top => rfl
      | bot => rfl
      | atom => rfl
      | comp k c fs _ ih =>
        unfold prefixOf
        split
        · simp_all
        · simp_all [prefixOf.mergePrefix]
        · simp_all [prefixOf.mergePrefix]
        · rfl
    exact this hq
  rw [h1, h3 (h2.head.trans hp)]

end

/-! ### Theorems -/

/-- C08 (a further part that holds): when an existentially quantified formula and a universally quantified one are joined, in either order, by conjunction or
disjunction, then variables that are quantified in both are renamed, and the result is equivalent to the formula, with the existential quantifier first. -/
theorem C08_clash_partial (f f' : Formula) (hn : toNNF f = .ok f') (k : Kind) (c : Conn) (hc : c ≠ .not) (vs : List Term) (A : Formula) (ws : List Term)
    (B : Formula) (S : ClashSafe vs A ws B)
    (hf : f' = .comp k c [.quant .exists vs A, .quant .forall ws B] ∨ f' = .comp k c [.quant .forall ws B, .quant .exists vs A]) :
    ∃ g, toPrenex f = .ok g ∧ IsPrenex g ∧ (∃ vs' M, g = .quant .exists vs' (.quant .forall ws M) ∧ ∀ t ∈ vs', t ∉ ws) ∧
      ∀ (D : Type) (I : Interp D), NonemptySorts I → ∀ σ, Sat I g σ ↔ Sat I f σ := by
  have hqf : QFree (nestSub (nestVars vs ws).2 A) := by
    have h : ∀ (s : Subst) {f}, QFree f → QFree (subF s f) := by
      intro s f hq
      induction hq with
      | top => exact .top
      | bot => exact .bot
      | atom => exact .atom _ _
      | comp k c fs _ ih =>
        refine .comp _ _ _ ?_
        intro g hg
        have : ∀ fs : List Formula, g ∈ subFs s fs → ∃ f ∈ fs, g = subF s f := by
          intro fs
          induction fs with
          | nil => simp [subFs]
          | cons x xs ih => simp only [subFs, List.mem_cons]; rintro (h | h); exacts [⟨x, .inl rfl, h⟩, (ih h).imp fun y hy => ⟨.inr hy.1, hy.2⟩]
        obtain ⟨x, hx, rfl⟩ := this fs hg
        exact ih x hx
    unfold nestSub
    split
    · exact S.qfreeA
    · exact h _ S.qfreeA
  have hdis : ∀ t ∈ (nestVars vs ws).1, t ∉ ws := by
    intro t ht
    simp only [nestVars, List.mem_map] at ht
    obtain ⟨y, hy, rfl⟩ := ht
    obtain ⟨u, rfl⟩ := S.vars y hy
    split
    · rename_i hw
      exact (S.fresh u hy hw).2.1
    · assumption
  have hpx : ∀ (q : Quant) (xs : List Term) (C : Formula), PrenexSafe C → QFree C → ∀ n, psize C < n → pxFuel n (.quant q xs C) = .ok (.quant q xs C) := by
    intro q xs C h1 h2 n hn
    obtain ⟨m, rfl⟩ : ∃ m, n = m + 1 := ⟨n - 1, by omega⟩
    simp only [pxFuel, px_qfree h1 h2 m (by omega)]
    cases h2 <;> rfl
  have hsat : ∀ {D} (I : Interp D) σ, Sat I f' σ ↔ Sat I f σ := by
    intro D I σ
    have := nnf_sound false f f' hn I σ
    simpa [NegIf] using this
  rcases hf with rfl | rfl
  · refine ⟨.quant .exists (nestVars vs ws).1 (.quant .forall ws (.comp .tuple c [nestSub (nestVars vs ws).2 A, B])), ?_, ?_, ⟨_, _, rfl, hdis⟩, ?_⟩
    · simp only [toPrenex, hn, psize, psizes]
      rw [show 1 + (1 + psize A + (1 + psize B + 0)) = (1 + psize A + (1 + psize B + 0)) + 1 by omega]
      cases c
      · simp only [pxFuel, hpx .exists vs A S.safeA S.qfreeA (1 + psize A + (1 + psize B + 0)) (by omega),
          hpx .forall ws B S.safeB S.qfreeB (1 + psize A + (1 + psize B + 0)) (by omega), combine]
        simp
      · simp only [pxFuel, hpx .exists vs A S.safeA S.qfreeA (1 + psize A + (1 + psize B + 0)) (by omega),
          hpx .forall ws B S.safeB S.qfreeB (1 + psize A + (1 + psize B + 0)) (by omega), combine]
        simp
      · exact absurd rfl hc
    · exact .quant _ _ _ (.quant _ _ _ (.matrix _ (.comp _ _ _ (by simp [hqf, S.qfreeB]))))
    · intro D I hI σ
      rw [← hsat I σ, sat_comp2 I k c _ _ hc]
      simp only [Sat]
      rw [← nest_sem S c hc I hI σ]
      exact quantBlock_congr I _ _ (fun τ => quantBlock_congr I _ _ (fun τ => by rw [sat_comp2 I _ c _ _ hc]) τ) σ
  · refine ⟨.quant .exists (nestVars vs ws).1 (.quant .forall ws (.comp .tuple c [B, nestSub (nestVars vs ws).2 A])), ?_, ?_, ⟨_, _, rfl, hdis⟩, ?_⟩
    · simp only [toPrenex, hn, psize, psizes]
      rw [show 1 + (1 + psize B + (1 + psize A + 0)) = (1 + psize B + (1 + psize A + 0)) + 1 by omega]
      cases c
      · simp only [pxFuel, hpx .exists vs A S.safeA S.qfreeA (1 + psize B + (1 + psize A + 0)) (by omega),
          hpx .forall ws B S.safeB S.qfreeB (1 + psize B + (1 + psize A + 0)) (by omega), combine]
        simp
      · simp only [pxFuel, hpx .exists vs A S.safeA S.qfreeA (1 + psize B + (1 + psize A + 0)) (by omega),
          hpx .forall ws B S.safeB S.qfreeB (1 + psize B + (1 + psize A + 0)) (by omega), combine]
        simp
      · exact absurd rfl hc
    · exact .quant _ _ _ (.quant _ _ _ (.matrix _ (.comp _ _ _ (by simp [hqf, S.qfreeB]))))
    · intro D I hI σ
      rw [← hsat I σ, sat_comp2 I k c _ _ hc]
      simp only [Sat]
      rw [sat2_comm, ← nest_sem S c hc I hI σ]
      exact quantBlock_congr I _ _ (fun τ => quantBlock_congr I _ _ (fun τ => by rw [sat_comp2 I _ c _ _ hc, sat2_comm]) τ) σ

/-! ### Examples -/

/-- `(exists x. p(x)) and (forall x. r(x, y))` meets the hypotheses. -/
example : ClashSafe [pxX] (pxP pxX) [pxX] (pxR pxX pxY) where
  qfreeA := .atom _ _
  qfreeB := .atom _ _
  safeA := .atom _ _
  safeB := .atom _ _
  varsA := by simp [pxP, VarBindersF, VarBindersTs, VarBindersT, pxX]
  vars := by simp [pxX]
  inner := by simp [pxP, BoundF, BoundTs, BoundT, pxX]
  onlyB := fun _ h h2 => absurd h h2
  onlyA := fun _ h h2 => absurd h h2
  fresh := by
    simp only [List.mem_singleton, pxX, Term.var.injEq]
    rintro v rfl -
    refine ⟨by decide, by decide, ?_, ?_⟩ <;> simp only [pxP, pxR, pxY, FreeF, FreeTs, FreeT, or_false] <;> decide

example : toPrenex (land [.quant .exists [pxX] (pxP pxX), .quant .forall [pxX] (pxR pxX pxY)]) =
    .ok (.quant .exists [.var ⟨"x'", "o"⟩] (.quant .forall [pxX] (.comp .tuple .and [pxP (.var ⟨"x'", "o"⟩), pxR pxX pxY]))) := by
  decide +kernel

end Tarski

import Verif.SubstLemmas
import Verif.FreeVarsLemmas
/-! Properties C13, C14 (substitution) and C15 (free variables). -/
namespace Tarski

/-- The value a substitution of variables gives to a variable: the value of the last entry for it, or
the old value. -/
def SubstAsg {D} (I : Interp D) (s : Subst) (σ τ : Asg D) : Prop :=
  ∀ v, (∀ t, s.get? (.var v) = some t → τ v = evalT I t σ) ∧ (s.get? (.var v) = none → τ v = σ v)

/-- C13, full statement: substituting constants for variables is re-assignment. -/
def C13_full : Prop := ∀ (s : Subst) (f : Formula), VarBindersF f → KeysVar s →
  (∀ kv ∈ s, ∃ n so, kv.2 = Term.const n so) →
  ∀ (D : Type) (I : Interp D) (σ τ : Asg D), SubstAsg I s σ τ → (Sat I (subF s f) σ ↔ Sat I f τ)

/-- The code violates C13: in `exists x. p(x)` the substitution `x := c` also replaces the bound
occurrences (and the entry in the quantifier's variable list), giving `exists c. p(c)`. -/
theorem C13_refuted : ¬ C13_full := by
  intro h
  let x : Var := ⟨"x", "object"⟩
  let c : Term := .const (.str "c") "object"
  have := h [(.var x, c)] (.quant .exists [.var x] (.atom (.user "p") [.var x]))
    (by simp [VarBindersF, VarBindersTs, VarBindersT]) (by simp [KeysVar])
    (by intro kv hkv; simp at hkv; subst hkv; exact ⟨_, _, rfl⟩) Bool
    ⟨fun _ _ => false, fun _ _ => false, fun _ ds => ds = [true], fun _ _ => True⟩ (fun _ => false) (fun _ => false)
    (by intro v; simp [Subst.get?]; intro _; simp [c, evalT])
  have hs : subF [(.var x, c)] (.quant .exists [.var x] (.atom (.user "p") [.var x])) =
      .quant .exists [c] (.atom (.user "p") [c]) := by
    simp [subF, subTs, subT, Subst.visit, Subst.get?]
  rw [hs] at this
  simp [Sat, quantBlock, c, evalTs, evalT, Asg.set] at this

/-- C13 (part that holds, in a more general form): substituting arbitrary terms for variables is
re-assignment provided no quantifier inside the formula binds a substituted variable or a variable free in
a replacement; missing: formulas re-binding a substituted variable, where it is false. -/
theorem C13_subst_partial (s : Subst) (f : Formula) (hb : VarBindersF f) (hs : KeysVar s)
    (hf : ∀ v, BoundF v f → ∀ kv ∈ s, kv.1 ≠ Term.var v ∧ ¬ FreeT v kv.2)
    (D : Type) (I : Interp D) (σ τ : Asg D) (h : SubstAsg I s σ τ) :
    Sat I (subF s f) σ ↔ Sat I f τ := by
  rw [subF_sem I hs f hb hf σ]
  have : updAsg I s σ = τ := by
    funext v
    unfold updAsg Subst.visit
    cases hg : s.get? (.var v) with
    | none => simpa [evalT] using ((h v).2 hg).symm
    | some t => simpa using ((h v).1 t hg).symm
  rw [this]

/-- Same for terms. -/
theorem C13_subst_term_partial (s : Subst) (t : Term) (hb : VarBindersT t) (hs : KeysVar s)
    (hf : ∀ v, BoundT v t → ∀ kv ∈ s, kv.1 ≠ Term.var v ∧ ¬ FreeT v kv.2)
    (D : Type) (I : Interp D) (σ τ : Asg D) (h : SubstAsg I s σ τ) :
    evalT I (subT s t) σ = evalT I t τ := by
  rw [subT_sem I hs t hb hf σ]
  have : updAsg I s σ = τ := by
    funext v
    unfold updAsg Subst.visit
    cases hg : s.get? (.var v) with
    | none => simpa [evalT] using ((h v).2 hg).symm
    | some t => simpa using ((h v).1 t hg).symm
  rw [this]

/-- The constants case of C13 as used by grounding: only re-binding of a substituted variable is
excluded. -/
theorem C13_subst_constants_partial (s : Subst) (f : Formula) (hb : VarBindersF f) (hs : KeysVar s)
    (hc : ∀ kv ∈ s, ∃ n so, kv.2 = Term.const n so)
    (hf : ∀ v, BoundF v f → ∀ kv ∈ s, kv.1 ≠ Term.var v)
    (D : Type) (I : Interp D) (σ τ : Asg D) (h : SubstAsg I s σ τ) :
    Sat I (subF s f) σ ↔ Sat I f τ :=
  C13_subst_partial s f hb hs (fun v hv kv hkv => ⟨hf v hv kv hkv, by
    obtain ⟨n, so, he⟩ := hc kv hkv; rw [he]; simp [FreeT]⟩) D I σ τ h

/-- Non-vacuity: `q(x, ite(p(x), x, y)) and exists z. q(x, z)` with `x := f(y)`. -/
def substSample : Formula :=
  .comp .tuple .and [.atom (.user "q") [.var ⟨"x", "o"⟩, .ite (.atom (.user "p") [.var ⟨"x", "o"⟩]) (.var ⟨"x", "o"⟩) (.var ⟨"y", "o"⟩)],
    .quant .exists [.var ⟨"z", "o"⟩] (.atom (.user "q") [.var ⟨"x", "o"⟩, .var ⟨"z", "o"⟩])]

example : VarBindersF substSample ∧ KeysVar [(.var ⟨"x", "o"⟩, .app "f" [.var ⟨"y", "o"⟩])] ∧
    (∀ v, BoundF v substSample → ∀ kv ∈ [((.var ⟨"x", "o"⟩, .app "f" [.var ⟨"y", "o"⟩]) : Term × Term)],
      kv.1 ≠ Term.var v ∧ ¬ FreeT v kv.2) := by
  refine ⟨?_, by simp [KeysVar], ?_⟩
  · simp [substSample, VarBindersF, VarBindersFs, VarBindersTs, VarBindersT]
  · intro v hv
    simp [substSample, BoundF, BoundFs, BoundTs, BoundT] at hv
    subst hv
    simp [FreeT, FreeTs]

/-! ### C14 -/

mutual
/-- `v` occurs somewhere in a term (free, bound, or in a quantifier list). -/
def OccT (v : Var) : Term → Prop
  | .var w => w = v
  | .const _ _ => False
  | .app _ ts => OccTs v ts
  | .ite c t e => OccF v c ∨ OccT v t ∨ OccT v e
def OccTs (v : Var) : List Term → Prop
  | [] => False
  | t :: ts => OccT v t ∨ OccTs v ts
/-- `v` occurs somewhere in a formula. -/
def OccF (v : Var) : Formula → Prop
  | .top => False
  | .bot => False
  | .atom _ ts => OccTs v ts
  | .comp _ _ fs => OccFs v fs
  | .quant _ vs f => OccTs v vs ∨ OccF v f
def OccFs (v : Var) : List Formula → Prop
  | [] => False
  | f :: fs => OccF v f ∨ OccFs v fs
end

mutual
theorem subT_occ {s : Subst} (hs : KeysVar s) (w : Var) (hk : ∃ kv ∈ s, kv.1 = Term.var w)
    (hv : ∀ kv ∈ s, ¬ OccT w kv.2) (t : Term) : ¬ OccT w (subT s t) := by
  match t with
  | .var v =>
    simp only [subT, Subst.visit]
    cases hg : s.get? (.var v) with
    | some t => exact hv _ (get?_eq_some hg)
    | none =>
      simp only [Option.getD_none, OccT]
      rintro rfl
      obtain ⟨kv, h1, h2⟩ := hk
      exact get?_eq_none.mp hg kv h1 h2
  | .const n so => rw [subT, visit_nonvar hs (by simp)]; simp [OccT]
  | .app f ts => rw [subT, visit_nonvar hs (by simp)]; simp only [OccT]; exact subTs_occ hs w hk hv ts
  | .ite c a b =>
    rw [subT, visit_nonvar hs (by simp)]; simp only [OccT]
    have h1 := subF_occ hs w hk hv c
    have h2 := subT_occ hs w hk hv a
    have h3 := subT_occ hs w hk hv b
    simp [h1, h2, h3]
theorem subTs_occ {s : Subst} (hs : KeysVar s) (w : Var) (hk : ∃ kv ∈ s, kv.1 = Term.var w)
    (hv : ∀ kv ∈ s, ¬ OccT w kv.2) (ts : List Term) : ¬ OccTs w (subTs s ts) := by
  match ts with
  | [] => simp [subTs, OccTs]
  | t :: ts => simp [subTs, OccTs, subT_occ hs w hk hv t, subTs_occ hs w hk hv ts]
theorem subF_occ {s : Subst} (hs : KeysVar s) (w : Var) (hk : ∃ kv ∈ s, kv.1 = Term.var w)
    (hv : ∀ kv ∈ s, ¬ OccT w kv.2) (f : Formula) : ¬ OccF w (subF s f) := by
  match f with
  | .top => simp [subF, OccF]
  | .bot => simp [subF, OccF]
  | .atom p ts => simp [subF, OccF, subTs_occ hs w hk hv ts]
  | .comp k c fs => simp [subF, OccF, subFs_occ hs w hk hv fs]
  | .quant q vs f => simp [subF, OccF, subTs_occ hs w hk hv vs, subF_occ hs w hk hv f]
theorem subFs_occ {s : Subst} (hs : KeysVar s) (w : Var) (hk : ∃ kv ∈ s, kv.1 = Term.var w)
    (hv : ∀ kv ∈ s, ¬ OccT w kv.2) (fs : List Formula) : ¬ OccFs w (subFs s fs) := by
  match fs with
  | [] => simp [subFs, OccFs]
  | f :: fs => simp [subFs, OccFs, subF_occ hs w hk hv f, subFs_occ hs w hk hv fs]
end

/-- C14, first half: a substituted variable does not occur anywhere in the result, if the replacements
do not mention it. -/
theorem C14_eliminates (s : Subst) (hs : KeysVar s) (w : Var) (hk : ∃ kv ∈ s, kv.1 = Term.var w)
    (hv : ∀ kv ∈ s, ¬ OccT w kv.2) (f : Formula) : ¬ OccF w (subF s f) := subF_occ hs w hk hv f

example : KeysVar [(.var ⟨"x", "o"⟩, .const (.str "c") "o")] ∧
    (∀ kv ∈ [((.var ⟨"x", "o"⟩, .const (.str "c") "o") : Term × Term)], ¬ OccT ⟨"x", "o"⟩ kv.2) := by
  simp [KeysVar, OccT]

/-- C14, second half, full statement: substituting for variables that do not occur returns a formula
equal (`==`) to the input. -/
def C14_identity_full : Prop := ∀ (s : Subst) (f : Formula), KeysVar s →
  (∀ v, OccF v f → ∀ kv ∈ s, kv.1 ≠ Term.var v) → formulaEq (subF s f) f = true

/-- The code violates it: even the empty substitution turns the tuple of subformulas that `land`
creates into a list, and `substitute_expression(land(T, F), {}) == land(T, F)` is False. -/
theorem C14_identity_refuted : ¬ C14_identity_full := by
  intro h
  have := h [] (land [.top, .bot]) (by simp [KeysVar]) (by simp)
  simp [land, createCompound, toBinaryTree, subF, formulaEq] at this

mutual
/-- Forget the python container kinds of a term. -/
def unkindT : Term → Term
  | .var v => .var v
  | .const n s => .const n s
  | .app f ts => .app f (unkindTs ts)
  | .ite c t e => .ite (unkindF c) (unkindT t) (unkindT e)
def unkindTs : List Term → List Term
  | [] => []
  | t :: ts => unkindT t :: unkindTs ts
/-- Forget the python container kinds of a formula. -/
def unkindF : Formula → Formula
  | .top => .top
  | .bot => .bot
  | .atom p ts => .atom p (unkindTs ts)
  | .comp _ c fs => .comp .list c (unkindFs fs)
  | .quant q vs f => .quant q (unkindTs vs) (unkindF f)
def unkindFs : List Formula → List Formula
  | [] => []
  | f :: fs => unkindF f :: unkindFs fs
end

mutual
theorem subT_id {s : Subst} (hs : KeysVar s) (t : Term)
    (h : ∀ v, OccT v t → ∀ kv ∈ s, kv.1 ≠ Term.var v) : unkindT (subT s t) = unkindT t := by
  match t with
  | .var v =>
    have : s.get? (.var v) = none := get?_eq_none.mpr (h v rfl)
    simp [subT, Subst.visit, this]
  | .const n so => rw [subT, visit_nonvar hs (by simp)]
  | .app f ts => rw [subT, visit_nonvar hs (by simp)]; simp only [unkindT]; rw [subTs_id hs ts h]
  | .ite c a b =>
    rw [subT, visit_nonvar hs (by simp)]; simp only [unkindT]
    rw [subF_id hs c (fun v hv => h v (Or.inl hv)), subT_id hs a (fun v hv => h v (Or.inr (Or.inl hv))),
      subT_id hs b (fun v hv => h v (Or.inr (Or.inr hv)))]
theorem subTs_id {s : Subst} (hs : KeysVar s) (ts : List Term)
    (h : ∀ v, OccTs v ts → ∀ kv ∈ s, kv.1 ≠ Term.var v) : unkindTs (subTs s ts) = unkindTs ts := by
  match ts with
  | [] => simp [subTs]
  | t :: ts =>
    simp only [subTs, unkindTs]
    rw [subT_id hs t (fun v hv => h v (Or.inl hv)), subTs_id hs ts (fun v hv => h v (Or.inr hv))]
theorem subF_id {s : Subst} (hs : KeysVar s) (f : Formula)
    (h : ∀ v, OccF v f → ∀ kv ∈ s, kv.1 ≠ Term.var v) : unkindF (subF s f) = unkindF f := by
  match f with
  | .top => simp [subF]
  | .bot => simp [subF]
  | .atom p ts => simp only [subF, unkindF]; rw [subTs_id hs ts h]
  | .comp k c fs => simp only [subF, unkindF]; rw [subFs_id hs fs h]
  | .quant q vs f =>
    simp only [subF, unkindF]
    rw [subTs_id hs vs (fun v hv => h v (Or.inl hv)), subF_id hs f (fun v hv => h v (Or.inr hv))]
theorem subFs_id {s : Subst} (hs : KeysVar s) (fs : List Formula)
    (h : ∀ v, OccFs v fs → ∀ kv ∈ s, kv.1 ≠ Term.var v) : unkindFs (subFs s fs) = unkindFs fs := by
  match fs with
  | [] => simp [subFs]
  | f :: fs =>
    simp only [subFs, unkindFs]
    rw [subF_id hs f (fun v hv => h v (Or.inl hv)), subFs_id hs fs (fun v hv => h v (Or.inr hv))]
end

/-- C14 (part that holds): the result is equal to the input up to the container kinds of compound
formulas; missing: `==` itself, which the change of container breaks. -/
theorem C14_identity_partial (s : Subst) (f : Formula) (hs : KeysVar s)
    (h : ∀ v, OccF v f → ∀ kv ∈ s, kv.1 ≠ Term.var v) :
    formulaEq (unkindF (subF s f)) (unkindF f) = true := by
  rw [formulaEq_iff]; exact subF_id hs f h

/-! ### C15 -/

/-- C15, full statement. -/
def C15_full : Prop := ∀ f, VarBindersF f →
  ∃ l, freeVariables f = .ok l ∧ l.Nodup ∧ ∀ v, v ∈ l ↔ FreeF v f

/-- The code violates C15: on `forall x. ((exists x. p(x)) and p(x))`, a closed formula, the visitor
raises KeyError, because leaving the inner quantifier removes `x` from the set of quantified variables. -/
theorem C15_refuted : ¬ C15_full := by
  intro h
  let x : Term := .var ⟨"x", "object"⟩
  obtain ⟨l, hl, _⟩ := h (.quant .forall [x] (.comp .tuple .and
    [.quant .exists [x] (.atom (.user "p") [x]), .atom (.user "p") [x]]))
    (by simp [VarBindersF, VarBindersFs, VarBindersTs, VarBindersT, x])
  simp [freeVariables, fvF, fvFs, fvTs, fvT, addAll, removeAll, setRemove, setAdd, x] at hl

/-- A second violation: variables inside if-then-else terms are not reported. -/
theorem C15_ite_missed :
    ∃ v f, FreeF v f ∧ freeVariables f = .ok [] :=
  ⟨⟨"x", "object"⟩, .atom (.user "p") [.ite .top (.var ⟨"x", "object"⟩) (.var ⟨"x", "object"⟩)],
    by simp [FreeF, FreeTs, FreeT], by simp [freeVariables, fvF, fvTs, fvT]⟩

/-- C15 (part that holds): correct on formulas without if-then-else terms in which no variable is bound
again inside the scope of a quantifier binding it; missing: those two cases. -/
theorem C15_free_variables_partial (f : Formula) (hv : VarBindersF f) (hi : NoIteF f) (hr : NoRebind f) :
    ∃ l, freeVariables f = .ok l ∧ l.Nodup ∧ ∀ v, v ∈ l ↔ FreeF v f := by
  obtain ⟨s, h1, h2, _, _, h5⟩ := fvF_spec f hi hr ⟨[], []⟩ (by simp) (by simp) (by simp) hv
  refine ⟨s.free, by simp [freeVariables, h1], h2, fun v => ?_⟩
  simp [h5]

/-- `(exists x. q(x, y)) and (forall x, z. q(x, z) or p(y))`, which meets the hypotheses. -/
def fvSample : Formula :=
  let x : Term := .var ⟨"x", "o"⟩; let y : Term := .var ⟨"y", "o"⟩; let z : Term := .var ⟨"z", "o"⟩
  .comp .tuple .and [.quant .exists [x] (.atom (.user "q") [x, y]),
    .quant .forall [x, z] (.comp .tuple .or [.atom (.user "q") [x, z], .atom (.user "p") [.app "f" [y]]])]

example : VarBindersF fvSample ∧ NoIteF fvSample ∧ NoRebind fvSample ∧
    freeVariables fvSample = .ok [⟨"y", "o"⟩] := by
  refine ⟨?_, ?_, ?_, ?_⟩
  · simp [fvSample, VarBindersF, VarBindersFs, VarBindersTs, VarBindersT]
  · simp [fvSample, NoIteF, NoIteFs, NoIteTs, NoIteT]
  · simp [fvSample, NoRebind, NoRebinds, BoundF, BoundFs, BoundTs, BoundT]
  · simp [fvSample, freeVariables, fvF, fvFs, fvTs, fvT, addAll, removeAll, setRemove, setAdd]

end Tarski

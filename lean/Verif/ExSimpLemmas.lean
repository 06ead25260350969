import Verif.ExSimp
import Verif.SubstLemmas
import Verif.FreeVarsLemmas
import Mathlib.Tactic.Common
/-! Lemmas about the existential simplifier. -/
namespace Tarski

theorem mem_enumFilter {p : Nat → Bool} : ∀ (i : Nat) (cs : List Formula) (c : Formula),
    c ∈ enumFilter p i cs ↔ ∃ j, cs[j]? = some c ∧ p (i + j) = true
  | i, [], c => by simp [enumFilter]
  | i, d :: cs, c => by
    have ih := mem_enumFilter (p := p) (i + 1) cs c
    have hsplit : (∃ j, (d :: cs)[j]? = some c ∧ p (i + j) = true) ↔
        (d = c ∧ p i = true) ∨ ∃ j, cs[j]? = some c ∧ p (i + 1 + j) = true := by
      constructor
      · rintro ⟨j, h1, h2⟩
        cases j with
        | zero => left; simpa using ⟨by simpa using h1, h2⟩
        | succ j => right; exact ⟨j, by simpa using h1, by rwa [Nat.add_right_comm] at *⟩
      · rintro (⟨rfl, h⟩ | ⟨j, h1, h2⟩)
        · exact ⟨0, by simp, h⟩
        · exact ⟨j + 1, by simpa using h1, by rwa [Nat.add_right_comm] at h2⟩
    rw [hsplit, ← ih]
    simp only [enumFilter]
    split
    · rename_i hp; simp [hp, eq_comm]
    · rename_i hp; simp [hp]

/-- What the scan finds. -/
theorem exScan_spec (xs : List Term) : ∀ (i : Nat) (cs : List Formula),
    (∀ j ∈ (exScan xs i cs).1, ∃ z, i ≤ j ∧ z ∈ xs ∧ cs[j - i]? = some (.atom (.cmp .eq) [z, z])) ∧
    (∀ r x t, (exScan xs i cs).2 = some (r, x, t) → i ≤ r ∧ x ∈ xs ∧ x ≠ t ∧
      (cs[r - i]? = some (.atom (.cmp .eq) [x, t]) ∨ cs[r - i]? = some (.atom (.cmp .eq) [t, x]))) ∧
    ((exScan xs i cs).2 = none → ∀ j a b, cs[j]? = some (.atom (.cmp .eq) [a, b]) → a ∈ xs ∨ b ∈ xs →
      a = b ∧ i + j ∈ (exScan xs i cs).1) := by
  intro i cs
  fun_induction exScan xs i cs with
  | case1 => simp
  | case2 i t1 t2 cs hn ih =>
    obtain ⟨h1, h2, h3⟩ := ih
    refine ⟨fun j hj => ?_, fun r x t h => ?_, fun h j a b hj hab => ?_⟩
    · obtain ⟨z, hz1, hz, hz2⟩ := h1 j hj
      refine ⟨z, by omega, hz, ?_⟩
      rw [show j - i = (j - (i + 1)) + 1 by omega]; simpa using hz2
    · obtain ⟨hr, hx, hne, hc⟩ := h2 r x t h
      refine ⟨by omega, hx, hne, ?_⟩
      rw [show r - i = (r - (i + 1)) + 1 by omega]; simpa using hc
    · cases j with
      | zero =>
        simp only [List.getElem?_cons_zero, Option.some.injEq, Formula.atom.injEq, List.cons.injEq, and_true,
          true_and] at hj
        obtain ⟨rfl, rfl⟩ := hj
        exact absurd hab (by tauto)
      | succ j =>
        have := h3 h j a b (by simpa using hj) hab
        exact ⟨this.1, by rw [show i + (j + 1) = i + 1 + j by omega]; exact this.2⟩
  | case3 i t1 cs hn ih =>
    obtain ⟨h1, h2, h3⟩ := ih
    refine ⟨fun j hj => ?_, fun r x t h => ?_, fun h j a b hj hab => ?_⟩
    · rcases List.mem_cons.1 hj with rfl | hj
      · exact ⟨t1, Nat.le_refl _, by tauto, by simp⟩
      · obtain ⟨z, hz1, hz, hz2⟩ := h1 j hj
        refine ⟨z, by omega, hz, ?_⟩
        rw [show j - i = (j - (i + 1)) + 1 by omega]; simpa using hz2
    · obtain ⟨hr, hx, hne, hc⟩ := h2 r x t h
      refine ⟨by omega, hx, hne, ?_⟩
      rw [show r - i = (r - (i + 1)) + 1 by omega]; simpa using hc
    · cases j with
      | zero =>
        simp only [List.getElem?_cons_zero, Option.some.injEq, Formula.atom.injEq, List.cons.injEq, and_true,
          true_and] at hj
        exact ⟨hj.1.symm.trans hj.2, by simp⟩
      | succ j =>
        have := h3 h j a b (by simpa using hj) hab
        refine ⟨this.1, ?_⟩
        rw [show i + (j + 1) = i + 1 + j by omega]; simp [this.2]
  | case4 i t1 t2 cs hn hne hb =>
    refine ⟨by simp, fun r x t h => ?_, by simp⟩
    simp only [Option.some.injEq, Prod.mk.injEq] at h
    obtain ⟨rfl, rfl, rfl⟩ := h
    exact ⟨Nat.le_refl _, hb.2, fun h => hne h.symm, by simp⟩
  | case5 i t1 t2 cs hn hne hb h1 =>
    refine ⟨by simp, fun r x t h => ?_, by simp⟩
    simp only [Option.some.injEq, Prod.mk.injEq] at h
    obtain ⟨rfl, rfl, rfl⟩ := h
    exact ⟨Nat.le_refl _, h1, hne, by simp⟩
  | case6 i t1 t2 cs hn hne hb h1 =>
    refine ⟨by simp, fun r x t h => ?_, by simp⟩
    simp only [Option.some.injEq, Prod.mk.injEq] at h
    obtain ⟨rfl, rfl, rfl⟩ := h
    exact ⟨Nat.le_refl _, by tauto, fun h => hne h.symm, by simp⟩
  | case7 i c cs hc ih =>
    obtain ⟨h1, h2, h3⟩ := ih
    refine ⟨fun j hj => ?_, fun r x t h => ?_, fun h j a b hj hab => ?_⟩
    · obtain ⟨z, hz1, hz, hz2⟩ := h1 j hj
      refine ⟨z, by omega, hz, ?_⟩
      rw [show j - i = (j - (i + 1)) + 1 by omega]; simpa using hz2
    · obtain ⟨hr, hx, hne, hc⟩ := h2 r x t h
      refine ⟨by omega, hx, hne, ?_⟩
      rw [show r - i = (r - (i + 1)) + 1 by omega]; simpa using hc
    · cases j with
      | zero =>
        simp only [List.getElem?_cons_zero, Option.some.injEq] at hj
        exact absurd hj (hc a b)
      | succ j =>
        have := h3 h j a b (by simpa using hj) hab
        exact ⟨this.1, by rw [show i + (j + 1) = i + 1 + j by omega]; exact this.2⟩

/-! ### Free variables and substitution -/

mutual
theorem freeT_subT {s : Subst} (hs : KeysVar s) (v : Var) (t : Term) (hb : VarBindersT t) (hf : ∀ w, BoundT w t → Fresh s w)
    (h : FreeT v (subT s t)) : (FreeT v t ∧ ∀ kv ∈ s, kv.1 ≠ Term.var v) ∨ ∃ kv ∈ s, FreeT v kv.2 := by
  match t with
  | .var w =>
    simp only [subT, Subst.visit] at h
    cases hg : s.get? (.var w) with
    | none =>
      simp only [hg, Option.getD_none, FreeT] at h
      subst h
      exact .inl ⟨rfl, get?_eq_none.1 hg⟩
    | some u =>
      simp only [hg, Option.getD_some] at h
      exact .inr ⟨_, get?_eq_some hg, h⟩
  | .const n so => rw [subT, visit_nonvar hs (by simp)] at h; simp [FreeT] at h
  | .app f ts =>
    rw [subT, visit_nonvar hs (by simp)] at h
    exact freeTs_subTs hs v ts hb hf h
  | .ite c a b =>
    rw [subT, visit_nonvar hs (by simp)] at h
    simp only [FreeT] at h ⊢
    rcases h with h | h | h
    · have := freeF_subF hs v c hb.1 (fun w hw => hf w (Or.inl hw)) h; tauto
    · have := freeT_subT hs v a hb.2.1 (fun w hw => hf w (Or.inr (Or.inl hw))) h; tauto
    · have := freeT_subT hs v b hb.2.2 (fun w hw => hf w (Or.inr (Or.inr hw))) h; tauto
theorem freeTs_subTs {s : Subst} (hs : KeysVar s) (v : Var) (ts : List Term) (hb : VarBindersTs ts)
    (hf : ∀ w, BoundTs w ts → Fresh s w) (h : FreeTs v (subTs s ts)) :
    (FreeTs v ts ∧ ∀ kv ∈ s, kv.1 ≠ Term.var v) ∨ ∃ kv ∈ s, FreeT v kv.2 := by
  match ts with
  | [] => simp [subTs, FreeTs] at h
  | t :: ts =>
    simp only [subTs, FreeTs] at h ⊢
    rcases h with h | h
    · have := freeT_subT hs v t hb.1 (fun w hw => hf w (Or.inl hw)) h; tauto
    · have := freeTs_subTs hs v ts hb.2 (fun w hw => hf w (Or.inr hw)) h; tauto
theorem freeF_subF {s : Subst} (hs : KeysVar s) (v : Var) (f : Formula) (hb : VarBindersF f) (hf : ∀ w, BoundF w f → Fresh s w)
    (h : FreeF v (subF s f)) : (FreeF v f ∧ ∀ kv ∈ s, kv.1 ≠ Term.var v) ∨ ∃ kv ∈ s, FreeT v kv.2 := by
  match f with
  | .top => simp [subF, FreeF] at h
  | .bot => simp [subF, FreeF] at h
  | .atom p ts => exact freeTs_subTs hs v ts hb hf h
  | .comp k c fs => exact freeFs_subFs hs v fs hb hf h
  | .quant q vs f =>
    simp only [subF] at h
    rw [subTs_binders hb.1 (fun v hv => hf v (Or.inl hv))] at h
    simp only [FreeF] at h ⊢
    have := freeF_subF hs v f hb.2 (fun w hw => hf w (Or.inr hw)) h.1
    tauto
theorem freeFs_subFs {s : Subst} (hs : KeysVar s) (v : Var) (fs : List Formula) (hb : VarBindersFs fs)
    (hf : ∀ w, BoundFs w fs → Fresh s w) (h : FreeFs v (subFs s fs)) :
    (FreeFs v fs ∧ ∀ kv ∈ s, kv.1 ≠ Term.var v) ∨ ∃ kv ∈ s, FreeT v kv.2 := by
  match fs with
  | [] => simp [subFs, FreeFs] at h
  | f :: fs =>
    simp only [subFs, FreeFs] at h ⊢
    rcases h with h | h
    · have := freeF_subF hs v f hb.1 (fun w hw => hf w (Or.inl hw)) h; tauto
    · have := freeFs_subFs hs v fs hb.2 (fun w hw => hf w (Or.inr hw)) h; tauto
end

theorem freeFs_iff {v : Var} {fs : List Formula} : FreeFs v fs ↔ ∃ f ∈ fs, FreeF v f := by
  induction fs with
  | nil => simp [FreeFs]
  | cons f fs ih => simp [FreeFs, ih]

/-! ### Blocks of existential quantifiers -/

/-- `∃ xs. cs` under `σ`: some values of the right sorts for the variables of the block satisfy all conjuncts. -/
def ExHolds {D} (I : Interp D) (xs : List Term) (cs : List Formula) (σ : Asg D) : Prop :=
  ∃ τ : Asg D, (∀ v, Term.var v ∈ xs → I.sort v.sort (τ v)) ∧ (∀ v, Term.var v ∉ xs → τ v = σ v) ∧ ∀ c ∈ cs, Sat I c τ

theorem quantBlock_exists {D} (I : Interp D) {P : Asg D → Prop} : ∀ (vs : List Term) (σ : Asg D),
    quantBlock I .exists vs P σ ↔ ∃ τ : Asg D, (∀ v, Term.var v ∈ vs → I.sort v.sort (τ v)) ∧
      (∀ v, Term.var v ∉ vs → τ v = σ v) ∧ P τ ∧ (∀ v, Term.var v ∈ vs → ∃ d, I.sort v.sort d)
  | [], σ => by
    simp only [quantBlock, List.not_mem_nil, false_imp_iff, implies_true, not_false_eq_true, true_imp_iff, true_and, and_true]
    constructor
    · intro h; exact ⟨σ, fun _ => rfl, h⟩
    · rintro ⟨τ, h1, h2⟩; rwa [show τ = σ from funext h1] at h2
  | .var w :: vs, σ => by
    simp only [quantBlock]
    constructor
    · rintro ⟨d, hd, h⟩
      obtain ⟨τ, h1, h2, h3, h4⟩ := (quantBlock_exists I vs _).1 h
      refine ⟨τ, fun v hv => ?_, fun v hv => ?_, h3, fun v hv => ?_⟩
      · by_cases hm : Term.var v ∈ vs
        · exact h1 v hm
        · have hvw : v = w := by simpa [hm] using hv
          subst hvw
          rw [h2 v hm]; simpa [Asg.set] using hd
      · simp only [List.mem_cons, not_or, Term.var.injEq] at hv
        rw [h2 v hv.2]; simp [Asg.set, hv.1]
      · rcases List.mem_cons.1 hv with he | hm
        · simp only [Term.var.injEq] at he; subst he; exact ⟨d, hd⟩
        · exact h4 v hm
    · rintro ⟨τ, h1, h2, h3, h4⟩
      refine ⟨τ w, h1 w (by simp), (quantBlock_exists I vs _).2 ⟨τ, fun v hv => h1 v (by simp [hv]), fun v hv => ?_, h3,
        fun v hv => h4 v (by simp [hv])⟩⟩
      by_cases hvw : v = w
      · simp [Asg.set, hvw]
      · simp only [Asg.set, if_neg hvw]; exact h2 v (by simp [hv, hvw])
  | .const n so :: vs, σ => by
    simp only [quantBlock]; rw [quantBlock_exists I vs σ]; simp
  | .app f ts :: vs, σ => by
    simp only [quantBlock]; rw [quantBlock_exists I vs σ]; simp
  | .ite c a b :: vs, σ => by
    simp only [quantBlock]; rw [quantBlock_exists I vs σ]; simp

theorem quantBlock_exists' {D} (I : Interp D) {P : Asg D → Prop} (vs : List Term) (σ : Asg D) :
    quantBlock I .exists vs P σ ↔ ∃ τ : Asg D, (∀ v, Term.var v ∈ vs → I.sort v.sort (τ v)) ∧
      (∀ v, Term.var v ∉ vs → τ v = σ v) ∧ P τ := by
  rw [quantBlock_exists]
  constructor
  · rintro ⟨τ, h1, h2, h3, _⟩; exact ⟨τ, h1, h2, h3⟩
  · rintro ⟨τ, h1, h2, h3⟩; exact ⟨τ, h1, h2, h3, fun v hv => ⟨_, h1 v hv⟩⟩

/-! ### One step -/

/-- `I` interprets `=` as equality. -/
def EqInterp {D} (I : Interp D) : Prop := ∀ a b, I.pred (.cmp .eq) [a, b] ↔ a = b

/-- The value of `t` always belongs to the sort of `x`, if the variables of `t` have values of their sorts. -/
def Typed {D} (I : Interp D) (x : Var) (t : Term) : Prop :=
  ∀ σ : Asg D, (∀ w, FreeT w t → I.sort w.sort (σ w)) → I.sort x.sort (evalT I t σ)

/-- Side conditions for the replacement chosen in a state of the loop: no `z = z` atom was met before it, `x` does not
occur in `t`, `t` has the sort of `x`, and no quantifier of a conjunct interferes. -/
def ExStepOK {D} (I : Interp D) (xs : List Term) (cs : List Formula) : Prop :=
  ∀ r v t, (exScan xs 0 cs).2 = some (r, Term.var v, t) →
    (exScan xs 0 cs).1 = [] ∧ ¬ FreeT v t ∧ Typed I v t ∧
    ∀ c ∈ cs, VarBindersF c ∧ ∀ w, BoundF w c → w ≠ v ∧ ¬ FreeT w t

theorem exHolds_congr {D} {I : Interp D} {xs : List Term} {cs cs' : List Formula} {σ : Asg D}
    (h : ∀ τ : Asg D, (∀ c ∈ cs, Sat I c τ) ↔ ∀ c ∈ cs', Sat I c τ) : ExHolds I xs cs σ ↔ ExHolds I xs cs' σ := by
  simp only [ExHolds, h]

theorem enumFilter_true {p : Nat → Bool} : ∀ (i : Nat) (cs : List Formula), (∀ j, p j = true) → enumFilter p i cs = cs
  | _, [], _ => rfl
  | i, c :: cs, h => by simp only [enumFilter, h, if_true]; rw [enumFilter_true (i + 1) cs h]

theorem exAttempt_sound {D} {I : Interp D} (hI : EqInterp I) {xs : List Term} {cs : List Formula} (hx : ∀ x ∈ xs, ∃ v, x = Term.var v)
    (hok : ExStepOK I xs cs) {S : Var → Prop} (hS : ∀ c ∈ cs, ∀ v, FreeF v c → Term.var v ∈ xs ∨ S v) {σ : Asg D}
    (hσ : ∀ v, S v → I.sort v.sort (σ v)) :
    (ExHolds I (exAttempt xs cs).2.1 (exAttempt xs cs).2.2 σ ↔ ExHolds I xs cs σ) ∧
    (∀ x ∈ (exAttempt xs cs).2.1, x ∈ xs) ∧
    (∀ c ∈ (exAttempt xs cs).2.2, ∀ v, FreeF v c → Term.var v ∈ (exAttempt xs cs).2.1 ∨ S v) := by
  obtain ⟨hrem, hrep, hnone⟩ := exScan_spec xs 0 cs
  cases hsc : (exScan xs 0 cs).2 with
  | none =>
    simp only [exAttempt, hsc]
    refine ⟨exHolds_congr fun τ => ⟨fun h c hc => ?_, fun h c hc => ?_⟩, fun x hx => hx, fun c hc v hv => ?_⟩
    · obtain ⟨j, hj⟩ := List.getElem?_of_mem hc
      by_cases hm : j ∈ (exScan xs 0 cs).1
      · obtain ⟨z, _, _, hz⟩ := hrem j hm
        simp only [Nat.sub_zero, hj, Option.some.injEq] at hz
        subst hz
        simp only [Sat, evalTs]
        exact (hI _ _).2 rfl
      · exact h c ((mem_enumFilter ..).2 ⟨j, hj, by simpa using hm⟩)
    · obtain ⟨j, hj, _⟩ := (mem_enumFilter ..).1 hc
      exact h c (List.mem_of_getElem? hj)
    · obtain ⟨j, hj, _⟩ := (mem_enumFilter ..).1 hc
      exact hS c (List.mem_of_getElem? hj) v hv
  | some rxt =>
    obtain ⟨r, x, t⟩ := rxt
    obtain ⟨_, hxm, hne, hat⟩ := hrep r x t hsc
    obtain ⟨v, rfl⟩ := hx x hxm
    obtain ⟨hnil, hocc, htyp, hcap⟩ := hok r v t hsc
    have hcs1 : enumFilter (fun i => !(exScan xs 0 cs).1.contains i) 0 cs = cs :=
      enumFilter_true _ _ (by simp [hnil])
    simp only [exAttempt, hsc, hcs1]
    set s : Subst := [(Term.var v, t)] with hs
    have hkv : KeysVar s := by simp [hs, KeysVar]
    have hfresh : ∀ c ∈ cs, ∀ w, BoundF w c → Fresh s w := by
      intro c hc w hw
      obtain ⟨h1, h2⟩ := (hcap c hc).2 w hw
      simp only [Fresh, hs, List.mem_singleton, forall_eq, ne_eq, Term.var.injEq]
      exact ⟨fun h => h1 h.symm, h2⟩
    simp only [Nat.sub_zero] at hat
    -- satisfaction of the equation
    have heq : ∀ τ : Asg D, (∀ c, cs[r]? = some c → Sat I c τ) ↔ τ v = evalT I t τ := by
      intro τ
      rcases hat with hat | hat <;> rw [hat] <;> simp only [Option.some.injEq, forall_eq', Sat, evalTs, evalT]
      · exact hI _ _
      · exact (hI _ _).trans eq_comm
    have hall : ∀ τ : Asg D, (∀ c ∈ cs, Sat I c τ) ↔ τ v = evalT I t τ ∧ ∀ c ∈ enumFilter (fun i => decide (i ≠ r)) 0 cs, Sat I c τ := by
      intro τ
      rw [← heq τ]
      constructor
      · intro h
        refine ⟨fun c hc => h c (List.mem_of_getElem? hc), fun c hc => ?_⟩
        obtain ⟨j, hj, _⟩ := (mem_enumFilter ..).1 hc
        exact h c (List.mem_of_getElem? hj)
      · rintro ⟨h1, h2⟩ c hc
        obtain ⟨j, hj⟩ := List.getElem?_of_mem hc
        by_cases hjr : j = r
        · subst hjr; exact h1 c hj
        · exact h2 c ((mem_enumFilter ..).2 ⟨j, hj, by simpa using hjr⟩)
    have hmem1 : ∀ c ∈ enumFilter (fun i => decide (i ≠ r)) 0 cs, c ∈ cs := by
      intro c hc
      obtain ⟨j, hj, _⟩ := (mem_enumFilter ..).1 hc
      exact List.mem_of_getElem? hj
    have hupd : ∀ τ : Asg D, ∀ w, updAsg I s τ w = if w = v then evalT I t τ else τ w := by
      intro τ w
      simp only [updAsg, Subst.visit, Subst.get?, hs]
      by_cases hw : w = v
      · simp [hw]
      · have : ¬ v = w := fun h => hw h.symm
        simp [hw, this, evalT]
    have hfreet : ∀ w, FreeT w t → Term.var w ∈ xs ∨ S w := by
      intro w hw
      rcases hat with hat | hat
      · exact hS _ (List.mem_of_getElem? hat) w (by simp [FreeF, FreeTs, hw])
      · exact hS _ (List.mem_of_getElem? hat) w (by simp [FreeF, FreeTs, hw])
    have hmemx : ∀ w, Term.var w ∈ xs.filter (fun y => decide (y ≠ Term.var v)) ↔ Term.var w ∈ xs ∧ w ≠ v := by
      intro w; simp
    refine ⟨?_, fun x hx => (List.mem_filter.1 hx).1, ?_⟩
    · constructor
      · rintro ⟨τ, h1, h2, h3⟩
        have hty : I.sort v.sort (evalT I t τ) := by
          refine htyp τ (fun w hw => ?_)
          have hwv : w ≠ v := fun h => hocc (h ▸ hw)
          by_cases hwx : Term.var w ∈ xs
          · exact h1 w ((hmemx w).2 ⟨hwx, hwv⟩)
          · have := (hfreet w hw).resolve_left hwx
            rw [h2 w (by rw [hmemx]; tauto)]
            exact hσ w this
        refine ⟨updAsg I s τ, fun w hw => ?_, fun w hw => ?_, ?_⟩
        · rw [hupd]
          by_cases hwv : w = v
          · subst hwv; simpa using hty
          · rw [if_neg hwv]; exact h1 w ((hmemx w).2 ⟨hw, hwv⟩)
        · have hwv : w ≠ v := by rintro rfl; exact hw hxm
          rw [hupd, if_neg hwv]
          exact h2 w (by rw [hmemx]; tauto)
        · rw [hall]
          refine ⟨?_, fun c hc => ?_⟩
          · rw [hupd, if_pos rfl]
            refine evalT_coinc I t _ _ (fun w hw => ?_)
            have hwv : w ≠ v := by rintro rfl; exact hocc hw
            rw [hupd, if_neg hwv]
          · rw [← subF_sem I hkv c (hcap c (hmem1 c hc)).1 (hfresh c (hmem1 c hc)) τ]
            exact h3 _ (List.mem_map.2 ⟨c, hc, rfl⟩)
      · rintro ⟨τ, h1, h2, h3⟩
        obtain ⟨he, h3⟩ := (hall τ).1 h3
        refine ⟨τ.set v (σ v), fun w hw => ?_, fun w hw => ?_, fun c hc => ?_⟩
        · obtain ⟨hw1, hw2⟩ := (hmemx w).1 hw
          simp only [Asg.set, if_neg hw2]; exact h1 w hw1
        · by_cases hwv : w = v
          · subst hwv; simp [Asg.set]
          · simp only [Asg.set, if_neg hwv]
            exact h2 w (fun h => hw ((hmemx w).2 ⟨h, hwv⟩))
        · obtain ⟨c, hcm, rfl⟩ := List.mem_map.1 hc
          clear hc; have hc := hcm
          rw [subF_sem I hkv c (hcap c (hmem1 c hc)).1 (hfresh c (hmem1 c hc))]
          have : updAsg I s (τ.set v (σ v)) = τ := by
            funext w
            rw [hupd]
            by_cases hwv : w = v
            · subst hwv
              rw [if_pos rfl, he]
              refine evalT_coinc I t _ _ (fun u hu => ?_)
              have huw : u ≠ w := by rintro rfl; exact hocc hu
              simp [Asg.set, huw]
            · simp [if_neg hwv, Asg.set]
          rw [this]
          exact h3 c hc
    · intro c hc w hw
      obtain ⟨c, hcm, rfl⟩ := List.mem_map.1 hc
      clear hc; have hc := hcm
      rw [hmemx]
      rcases freeF_subF hkv w c (hcap c (hmem1 c hc)).1 (hfresh c (hmem1 c hc)) hw with ⟨h1, h2⟩ | ⟨kv, hkv, h1⟩
      · have hwv : w ≠ v := fun h => h2 (Term.var v, t) (by simp [hs]) (by simp [h])
        have := hS c (hmem1 c hc) w h1
        tauto
      · simp only [hs, List.mem_singleton] at hkv
        subst hkv
        have hwv : w ≠ v := fun h => hocc (h ▸ h1)
        have := hfreet w h1
        tauto

/-! ### The loop -/

/-- The states the loop goes through. -/
inductive ExReach : List Term → List Formula → List Term → List Formula → Prop
  | refl (xs cs) : ExReach xs cs xs cs
  | step {xs cs ys ds} : (exAttempt xs cs).1 = true → ExReach (exAttempt xs cs).2.1 (exAttempt xs cs).2.2 ys ds →
      ExReach xs cs ys ds

/-- The side conditions hold in all states of the loop. -/
def ExRunOK {D} (I : Interp D) (xs : List Term) (cs : List Formula) : Prop :=
  ∀ ys ds, ExReach xs cs ys ds → ExStepOK I ys ds

theorem exLoop_sound {D} {I : Interp D} (hI : EqInterp I) {S : Var → Prop} {σ : Asg D} (hσ : ∀ v, S v → I.sort v.sort (σ v)) :
    ∀ (n : Nat) (xs : List Term) (cs : List Formula), (∀ x ∈ xs, ∃ v, x = Term.var v) → ExRunOK I xs cs →
      (∀ c ∈ cs, ∀ v, FreeF v c → Term.var v ∈ xs ∨ S v) →
      (ExHolds I (exLoop n xs cs).1 (exLoop n xs cs).2 σ ↔ ExHolds I xs cs σ) ∧
      (∀ x ∈ (exLoop n xs cs).1, x ∈ xs) ∧
      (∀ c ∈ (exLoop n xs cs).2, ∀ v, FreeF v c → Term.var v ∈ (exLoop n xs cs).1 ∨ S v)
  | 0, xs, cs, _, _, hS => by
    exact ⟨Iff.rfl, fun x h => h, hS⟩
  | n + 1, xs, cs, hx, hrun, hS => by
    obtain ⟨h1, h2, h3⟩ := exAttempt_sound hI hx (hrun _ _ (.refl _ _)) hS hσ
    simp only [exLoop]
    split
    · rename_i hgo
      obtain ⟨g1, g2, g3⟩ := exLoop_sound hI hσ n _ _ (fun x h => hx x (h2 x h)) (fun ys ds h => hrun ys ds (.step hgo h)) h3
      exact ⟨g1.trans h1, fun x h => h2 x (g2 x h), g3⟩
    · exact ⟨h1, h2, h3⟩

theorem exAttempt_shrinks {xs : List Term} {cs : List Formula} (h : (exAttempt xs cs).1 = true) :
    (exAttempt xs cs).2.1.length < xs.length := by
  obtain ⟨_, hrep, _⟩ := exScan_spec xs 0 cs
  cases hsc : (exScan xs 0 cs).2 with
  | none => simp [exAttempt, hsc] at h
  | some rxt =>
    obtain ⟨r, x, t⟩ := rxt
    simp only [exAttempt, hsc]
    refine Nat.lt_of_le_of_ne (List.length_filter_le _ _) (fun he => ?_)
    have := List.length_filter_eq_length_iff.1 he x (hrep r x t hsc).2.1
    simp at this

theorem exReach_trans {xs cs ys ds zs es} (h1 : ExReach xs cs ys ds) (h2 : ExReach ys ds zs es) : ExReach xs cs zs es := by
  induction h1 with
  | refl => exact h2
  | step h _ ih => exact .step h (ih h2)

/-- The loop stops by itself: its result is that of an attempt that does not go on. -/
theorem exLoop_stops : ∀ (n : Nat) (xs : List Term) (cs : List Formula), xs.length < n →
    ∃ ys ds, ExReach xs cs ys ds ∧ (exAttempt ys ds).1 = false ∧ exLoop n xs cs = (exAttempt ys ds).2
  | 0, xs, cs, h => by omega
  | n + 1, xs, cs, h => by
    simp only [exLoop]
    split
    · rename_i hgo
      obtain ⟨ys, ds, h1, h2, h3⟩ := exLoop_stops n (exAttempt xs cs).2.1 (exAttempt xs cs).2.2
        (by have := exAttempt_shrinks hgo; omega)
      exact ⟨ys, ds, .step hgo h1, h2, h3⟩
    · rename_i hgo
      exact ⟨xs, cs, .refl _ _, by simpa using hgo, rfl⟩

end Tarski

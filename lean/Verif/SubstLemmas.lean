import Verif.Subst
/-! Coincidence and substitution lemmas. -/
namespace Tarski
open Classical

theorem quantBlock_coinc {D} (I : Interp D) (q : Quant) {S : Var → Prop} {P : Asg D → Prop}
    (hP : ∀ σ τ : Asg D, (∀ v, S v → σ v = τ v) → (P σ ↔ P τ)) (vs : List Term) :
    ∀ σ τ : Asg D, (∀ v, S v → Term.var v ∉ vs → σ v = τ v) →
      (quantBlock I q vs P σ ↔ quantBlock I q vs P τ) := by
  induction vs with
  | nil => intro σ τ h; exact hP σ τ (fun v hv => h v hv (by simp))
  | cons t vs ih =>
    intro σ τ h
    cases t with
    | var w =>
      have hd : ∀ d, quantBlock I q vs P (σ.set w d) ↔ quantBlock I q vs P (τ.set w d) := by
        intro d
        apply ih
        intro v hv hn
        by_cases hvw : v = w
        · simp [Asg.set, hvw]
        · simp only [Asg.set, if_neg hvw]
          exact h v hv (by simp [hvw, hn])
      cases q <;> simp only [quantBlock, hd]
    | const n s => simp only [quantBlock]; exact ih σ τ (fun v hv hn => h v hv (by simp [hn]))
    | app f ts => simp only [quantBlock]; exact ih σ τ (fun v hv hn => h v hv (by simp [hn]))
    | ite c a b => simp only [quantBlock]; exact ih σ τ (fun v hv hn => h v hv (by simp [hn]))

mutual
theorem evalT_coinc {D} (I : Interp D) (t : Term) (σ τ : Asg D) (h : ∀ v, FreeT v t → σ v = τ v) :
    evalT I t σ = evalT I t τ := by
  match t with
  | .var v => simp only [evalT]; exact h v rfl
  | .const n s => simp only [evalT]
  | .app f ts => simp only [evalT]; rw [evalTs_coinc I ts σ τ h]
  | .ite c a b =>
    simp only [evalT]
    have h1 := sat_coinc I c σ τ (fun v hv => h v (Or.inl hv))
    have h2 := evalT_coinc I a σ τ (fun v hv => h v (Or.inr (Or.inl hv)))
    have h3 := evalT_coinc I b σ τ (fun v hv => h v (Or.inr (Or.inr hv)))
    rw [h2, h3]; exact ite_congr (propext h1) (fun _ => rfl) (fun _ => rfl)
theorem evalTs_coinc {D} (I : Interp D) (ts : List Term) (σ τ : Asg D) (h : ∀ v, FreeTs v ts → σ v = τ v) :
    evalTs I ts σ = evalTs I ts τ := by
  match ts with
  | [] => simp only [evalTs]
  | t :: ts =>
    simp only [evalTs]
    rw [evalT_coinc I t σ τ (fun v hv => h v (Or.inl hv)),
      evalTs_coinc I ts σ τ (fun v hv => h v (Or.inr hv))]
theorem sat_coinc {D} (I : Interp D) (f : Formula) (σ τ : Asg D) (h : ∀ v, FreeF v f → σ v = τ v) :
    Sat I f σ ↔ Sat I f τ := by
  match f with
  | .top => simp only [Sat]
  | .bot => simp only [Sat]
  | .atom p ts => simp only [Sat]; rw [evalTs_coinc I ts σ τ h]
  | .comp k .and fs => simp only [Sat]; exact (satList_coinc I fs σ τ h).1
  | .comp k .or fs => simp only [Sat]; exact (satList_coinc I fs σ τ h).2
  | .comp k .not fs => simp only [Sat]; rw [(satList_coinc I fs σ τ h).1]
  | .quant q vs f =>
    simp only [Sat]
    exact quantBlock_coinc I q (S := fun v => FreeF v f) (fun σ τ h => sat_coinc I f σ τ h) vs σ τ
      (fun v hv hn => h v ⟨hv, hn⟩)
theorem satList_coinc {D} (I : Interp D) (fs : List Formula) (σ τ : Asg D) (h : ∀ v, FreeFs v fs → σ v = τ v) :
    (SatAll I fs σ ↔ SatAll I fs τ) ∧ (SatAny I fs σ ↔ SatAny I fs τ) := by
  match fs with
  | [] => simp only [SatAll, SatAny, and_self]
  | f :: fs =>
    have h1 := sat_coinc I f σ τ (fun v hv => h v (Or.inl hv))
    have h2 := satList_coinc I fs σ τ (fun v hv => h v (Or.inr hv))
    simp only [SatAll, SatAny, h1, h2.1, h2.2, and_self]
end

/-- All keys are variables. -/
def KeysVar (s : Subst) : Prop := ∀ kv ∈ s, ∃ v, kv.1 = Term.var v

/-- A bound variable `w` does not interfere with the substitution. -/
def Fresh (s : Subst) (w : Var) : Prop := ∀ kv ∈ s, kv.1 ≠ Term.var w ∧ ¬ FreeT w kv.2

/-- The assignment described by the substitution. -/
noncomputable def updAsg {D} (I : Interp D) (s : Subst) (σ : Asg D) : Asg D :=
  fun v => evalT I (s.visit (.var v)) σ

theorem get?_eq_some {s : Subst} {t u} (h : s.get? t = some u) : (t, u) ∈ s := by
  unfold Subst.get? at h
  simp only [Option.map_eq_some_iff] at h
  obtain ⟨kv, hf, rfl⟩ := h
  have h1 := List.find?_some hf
  have h2 := List.mem_of_find?_eq_some hf
  simp only [beq_iff_eq] at h1
  subst h1
  simpa using h2

theorem get?_eq_none {s : Subst} {t} : s.get? t = none ↔ ∀ kv ∈ s, kv.1 ≠ t := by
  unfold Subst.get?
  simp [List.find?_eq_none]

theorem visit_nonvar {s : Subst} (hs : KeysVar s) {t} (ht : ∀ v, t ≠ .var v) : s.visit t = t := by
  have : s.get? t = none := by
    rw [get?_eq_none]
    intro kv hkv
    obtain ⟨v, hv⟩ := hs kv hkv
    rw [hv]; exact (ht v).symm
  simp [Subst.visit, this]

theorem visit_fresh {s : Subst} {w} (hw : Fresh s w) : s.visit (.var w) = .var w := by
  have : s.get? (.var w) = none := by
    rw [get?_eq_none]
    exact fun kv hkv => (hw kv hkv).1
  simp [Subst.visit, this]

theorem updAsg_set {D} (I : Interp D) {s : Subst} {w} (hw : Fresh s w) (σ : Asg D) (d : D) :
    updAsg I s (σ.set w d) = (updAsg I s σ).set w d := by
  funext v
  by_cases hv : v = w
  · subst hv
    simp only [updAsg, visit_fresh hw, evalT, Asg.set, if_true]
  · simp only [updAsg, Asg.set, if_neg hv]
    apply evalT_coinc
    intro u hu
    have : u ≠ w := by
      intro he; subst he
      unfold Subst.visit at hu
      cases hg : s.get? (.var v) with
      | none => rw [hg] at hu; simp [FreeT] at hu; exact hv hu
      | some t =>
        rw [hg] at hu
        exact (hw _ (get?_eq_some hg)).2 hu
    simp [Asg.set, this]

theorem subTs_binders {s : Subst} {vs : List Term} (hv : ∀ t ∈ vs, ∃ v, t = Term.var v)
    (hf : ∀ v, Term.var v ∈ vs → Fresh s v) : subTs s vs = vs := by
  induction vs with
  | nil => simp [subTs]
  | cons t vs ih =>
    simp only [List.mem_cons, forall_eq_or_imp] at hv
    obtain ⟨⟨w, rfl⟩, hv⟩ := hv
    rw [subTs, subT, visit_fresh (hf w (by simp)), ih hv (fun v h => hf v (by simp [h]))]

theorem quantBlock_upd {D} (I : Interp D) (s : Subst) (q : Quant) {P Q : Asg D → Prop}
    (hPQ : ∀ σ, P σ ↔ Q (updAsg I s σ)) (vs : List Term) (hf : ∀ v, Term.var v ∈ vs → Fresh s v) :
    ∀ σ, quantBlock I q vs P σ ↔ quantBlock I q vs Q (updAsg I s σ) := by
  induction vs with
  | nil => exact hPQ
  | cons t vs ih =>
    intro σ
    have ih := ih (fun v h => hf v (by simp [h]))
    cases t with
    | var w =>
      have hw := hf w (by simp)
      cases q <;> simp only [quantBlock, ih, updAsg_set I hw]
    | const n s => simp only [quantBlock, ih]
    | app f ts => simp only [quantBlock, ih]
    | ite c a b => simp only [quantBlock, ih]

mutual
theorem subT_sem {D} (I : Interp D) {s : Subst} (hs : KeysVar s) (t : Term) (hb : VarBindersT t)
    (hf : ∀ v, BoundT v t → Fresh s v) (σ : Asg D) :
    evalT I (subT s t) σ = evalT I t (updAsg I s σ) := by
  match t with
  | .var v => simp only [subT, evalT, updAsg]
  | .const n so => rw [subT, visit_nonvar hs (by simp)]; simp only [evalT]
  | .app f ts =>
    rw [subT, visit_nonvar hs (by simp)]
    simp only [evalT]
    rw [subTs_sem I hs ts hb hf σ]
  | .ite c a b =>
    rw [subT, visit_nonvar hs (by simp)]
    simp only [evalT]
    have h1 := subF_sem I hs c hb.1 (fun v hv => hf v (Or.inl hv)) σ
    have h2 := subT_sem I hs a hb.2.1 (fun v hv => hf v (Or.inr (Or.inl hv))) σ
    have h3 := subT_sem I hs b hb.2.2 (fun v hv => hf v (Or.inr (Or.inr hv))) σ
    rw [h2, h3]; exact ite_congr (propext h1) (fun _ => rfl) (fun _ => rfl)
theorem subTs_sem {D} (I : Interp D) {s : Subst} (hs : KeysVar s) (ts : List Term) (hb : VarBindersTs ts)
    (hf : ∀ v, BoundTs v ts → Fresh s v) (σ : Asg D) :
    evalTs I (subTs s ts) σ = evalTs I ts (updAsg I s σ) := by
  match ts with
  | [] => simp only [subTs, evalTs]
  | t :: ts =>
    simp only [subTs, evalTs]
    rw [subT_sem I hs t hb.1 (fun v hv => hf v (Or.inl hv)) σ,
      subTs_sem I hs ts hb.2 (fun v hv => hf v (Or.inr hv)) σ]
theorem subF_sem {D} (I : Interp D) {s : Subst} (hs : KeysVar s) (f : Formula) (hb : VarBindersF f)
    (hf : ∀ v, BoundF v f → Fresh s v) (σ : Asg D) :
    Sat I (subF s f) σ ↔ Sat I f (updAsg I s σ) := by
  match f with
  | .top => simp only [subF, Sat]
  | .bot => simp only [subF, Sat]
  | .atom p ts => simp only [subF, Sat]; rw [subTs_sem I hs ts hb hf σ]
  | .comp k .and fs => simp only [subF, Sat]; exact (subFs_sem I hs fs hb hf σ).1
  | .comp k .or fs => simp only [subF, Sat]; exact (subFs_sem I hs fs hb hf σ).2
  | .comp k .not fs => simp only [subF, Sat]; rw [(subFs_sem I hs fs hb hf σ).1]
  | .quant q vs f =>
    simp only [subF, Sat]
    have hvs : ∀ v, Term.var v ∈ vs → Fresh s v := fun v hv => hf v (Or.inl hv)
    rw [subTs_binders hb.1 hvs]
    exact quantBlock_upd I s q (fun σ => subF_sem I hs f hb.2 (fun v hv => hf v (Or.inr hv)) σ) vs hvs σ
theorem subFs_sem {D} (I : Interp D) {s : Subst} (hs : KeysVar s) (fs : List Formula) (hb : VarBindersFs fs)
    (hf : ∀ v, BoundFs v fs → Fresh s v) (σ : Asg D) :
    (SatAll I (subFs s fs) σ ↔ SatAll I fs (updAsg I s σ)) ∧
    (SatAny I (subFs s fs) σ ↔ SatAny I fs (updAsg I s σ)) := by
  match fs with
  | [] => simp only [subFs, SatAll, SatAny, and_self]
  | f :: fs =>
    have h1 := subF_sem I hs f hb.1 (fun v hv => hf v (Or.inl hv)) σ
    have h2 := subFs_sem I hs fs hb.2 (fun v hv => hf v (Or.inr hv)) σ
    simp only [subFs, SatAll, SatAny, h1, h2.1, h2.2, and_self]
end

end Tarski

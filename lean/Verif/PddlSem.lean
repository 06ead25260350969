import Verif.PddlReadLemmas
/-! Lemmas: the formula that is read back has the meaning of the one that was written. -/
namespace Tarski

/-- Interpretations in which `=` and `!=` are identity and its negation and the integers 0 and 1 differ. -/
structure EqMeaning {D : Type} (I : Interp D) : Prop where
  eq : ∀ a b, I.pred (.cmp .eq) [a, b] ↔ a = b
  ne : ∀ a b, I.pred (.cmp .ne) [a, b] ↔ a ≠ b
  nums : I.const (.int 0) "Integer" ≠ I.const (.int 1) "Integer"

section
variable {L : RLang} {real : String → Bool} {D : Type} (I : Interp D)

/-- The assignment `σ` of the PDDL variables agrees with `τ` on the scope. -/
def ScopeAgree (sc : List Var) (σ τ : Asg D) : Prop := ∀ v ∈ sc, τ v = σ (pvar v)

theorem numIn_sem {s : String} {t : Term} (h : NumIn L real s t) (σ τ : Asg D) : evalT I (pT t) σ = evalT I t τ := by
  obtain ⟨n, rfl, _⟩ := h
  simp [pT, evalT]

mutual
theorem term_sem : ∀ (t : Term) {sc : List Var} {σ τ : Asg D}, ScopeAgree sc σ τ → OkT L real sc t →
    evalT I (pT t) σ = evalT I t τ
  | .var v, sc, σ, τ, ha, h => by
    simp only [OkT] at h
    simp [pT, evalT, ha v h]
  | .const n s, sc, σ, τ, ha, h => by simp [pT, evalT]
  | .app f ts, sc, σ, τ, ha, h => by
    simp only [OkT] at h
    have : evalTs I (pTs ts) σ = evalTs I ts τ := by
      rcases h with h | h | h
      · exact two_sem ts ha h.2.2
      · exact two_sem ts ha h.2.2
      · obtain ⟨_, ss, c, _, h⟩ := h
        exact args_sem ts ss ha h
    simp [pT, evalT, this]
  | .ite _ _ _, sc, σ, τ, ha, h => by simp [OkT] at h
theorem args_sem : ∀ (ts : List Term) (ss : List String) {sc : List Var} {σ τ : Asg D}, ScopeAgree sc σ τ →
    OkArgs L real sc ts ss → evalTs I (pTs ts) σ = evalTs I ts τ
  | [], ss, sc, σ, τ, ha, h => by simp [pTs, evalTs]
  | t :: ts, [], sc, σ, τ, ha, h => by simp [OkArgs] at h
  | t :: ts, s :: ss, sc, σ, τ, ha, h => by
    simp only [OkArgs] at h
    have h1 : evalT I (pT t) σ = evalT I t τ := by
      rcases h.1 with h | h
      · exact term_sem t ha h.1
      · exact numIn_sem I h σ τ
    simp [pTs, evalTs, h1, args_sem ts ss ha h.2]
theorem two_sem : ∀ (ts : List Term) {sc : List Var} {top : String} {σ τ : Asg D}, ScopeAgree sc σ τ →
    OkTwo L real sc top ts → evalTs I (pTs ts) σ = evalTs I ts τ
  | [a, b], sc, top, σ, τ, ha, h => by
    simp only [OkTwo] at h
    obtain ⟨h, -⟩ := h
    have : evalT I (pT a) σ = evalT I a τ ∧ evalT I (pT b) σ = evalT I b τ := by
      rcases h with h | h | h | h
      · exact ⟨term_sem a ha h.1, term_sem b ha h.2⟩
      · exact ⟨term_sem a ha h.1, numIn_sem I h.2 σ τ⟩
      · exact ⟨numIn_sem I h.1 σ τ, term_sem b ha h.2⟩
      · exact ⟨numIn_sem I h.1 σ τ, numIn_sem I h.2.1 σ τ⟩
    simp [pTs, evalTs, this.1, this.2]
  | [], sc, top, σ, τ, ha, h => by simp [OkTwo] at h
  | [_], sc, top, σ, τ, ha, h => by simp [OkTwo] at h
  | _ :: _ :: _ :: _, sc, top, σ, τ, ha, h => by simp [OkTwo] at h
end

theorem two_shape {ts : List Term} {sc : List Var} {top : String} (h : OkTwo L real sc top ts) : ∃ a b, ts = [a, b] := by
  match ts, h with
  | [a, b], _ => exact ⟨a, b, rfl⟩

theorem atom_sem : ∀ (ts : List Term) (ss : List String) {sc : List Var} {σ τ : Asg D}, ScopeAgree sc σ τ →
    OkAtom L real sc ts ss → evalTs I (pTs ts) σ = evalTs I ts τ
  | [], ss, sc, σ, τ, ha, h => by simp [pTs, evalTs]
  | t :: ts, [], sc, σ, τ, ha, h => by simp [OkAtom] at h
  | t :: ts, s :: ss, sc, σ, τ, ha, h => by
    simp only [OkAtom] at h
    simp [pTs, evalTs, term_sem I t ha h.1, atom_sem ts ss ha h.2.2]

theorem scopeAgree_set {sc : List Var} {u : Var} {σ τ : Asg D} (ha : ScopeAgree sc σ τ)
    (hn : ((sc ++ [u]).map (fun v => (pvar v).sym)).Nodup) (d : D) :
    ScopeAgree (sc ++ [u]) (σ.set (pvar u) d) (τ.set u d) := by
  intro v hv
  rcases List.mem_append.mp hv with hv | hv
  · have hne : (pvar v).sym ≠ (pvar u).sym := by
      simp only [List.map_append, List.nodup_append, List.map_cons, List.map_nil] at hn
      exact hn.2.2 _ (List.mem_map_of_mem hv) _ (by simp)
    have h1 : v ≠ u := fun h => hne (by rw [h])
    have h2 : pvar v ≠ pvar u := fun h => hne (by rw [h])
    simp [Asg.set, h1, h2, ha v hv]
  · simp only [List.mem_singleton] at hv
    subst hv
    simp [Asg.set]

theorem block_sem (q : Quant) {P Q : Asg D → Prop} :
    ∀ (us : List Var) {sc : List Var} {σ τ : Asg D}, ScopeAgree sc σ τ →
    ((sc ++ us).map (fun v => (pvar v).sym)).Nodup →
    (∀ σ τ, ScopeAgree (sc ++ us) σ τ → (P σ ↔ Q τ)) →
    (quantBlock I q ((us.map pvar).map Term.var) P σ ↔ quantBlock I q (us.map Term.var) Q τ)
  | [], sc, σ, τ, ha, hn, hP => by
    simp only [List.map_nil, quantBlock]
    exact hP σ τ (by simpa using ha)
  | u :: us, sc, σ, τ, ha, hn, hP => by
    have hn' : ((sc ++ [u]).map (fun v => (pvar v).sym)).Nodup := by
      have : (sc ++ u :: us) = (sc ++ [u]) ++ us := by simp
      rw [this, List.map_append, List.nodup_append] at hn
      exact hn.1
    have key : ∀ d, quantBlock I q ((us.map pvar).map Term.var) P (σ.set (pvar u) d) ↔
        quantBlock I q (us.map Term.var) Q (τ.set u d) := fun d =>
      block_sem q us (scopeAgree_set ha hn' d) (by simpa using hn) (by simpa using hP)
    cases q with
    | «exists» =>
      simp only [List.map_cons, quantBlock]
      exact exists_congr fun d => and_congr Iff.rfl (key d)
    | «forall» =>
      simp only [List.map_cons, quantBlock]
      exact forall_congr' fun d => imp_congr Iff.rfl (key d)

mutual
theorem formula_sem (hI : EqMeaning I) : ∀ (f : Formula) {sc : List Var} {σ τ : Asg D}, ScopeAgree sc σ τ →
    OkF L real sc f → (Sat I (pF f) σ ↔ Sat I f τ)
  | .top, sc, σ, τ, ha, h => by simp [pF, Sat]
  | .bot, sc, σ, τ, ha, h => by simp [pF, Sat, evalTs, evalT, hI.eq, hI.nums]
  | .atom p ts, sc, σ, τ, ha, h => by
    cases p with
    | user p =>
      simp only [OkF] at h
      obtain ⟨_, ss, _, h⟩ := h
      simp [pF, Sat, atom_sem I ts ss ha h]
    | cmp c =>
      cases c with
      | ne =>
        simp only [OkF] at h
        obtain ⟨a, b, rfl⟩ := two_shape h.2
        have := two_sem I [a, b] ha h.2
        simp only [pF, neg, Sat, SatAll, and_true, this]
        simp only [evalTs, hI.eq, hI.ne]
      | eq => simp only [OkF] at h; simp [pF, Sat, two_sem I ts ha h.2]
      | lt => simp only [OkF] at h; simp [pF, Sat, two_sem I ts ha h.2]
      | le => simp only [OkF] at h; simp [pF, Sat, two_sem I ts ha h.2]
      | gt => simp only [OkF] at h; simp [pF, Sat, two_sem I ts ha h.2]
      | ge => simp only [OkF] at h; simp [pF, Sat, two_sem I ts ha h.2]
  | .comp k c fs, sc, σ, τ, ha, h => by
    cases c with
    | and => simp only [OkF] at h; simp only [pF, Sat]; exact (formulas_sem hI fs ha h.2).1
    | or => simp only [OkF] at h; simp only [pF, Sat]; exact (formulas_sem hI fs ha h.2).2
    | not => simp only [OkF] at h; simp only [pF, Sat]; exact not_congr (formulas_sem hI fs ha h.2).1
  | .quant q vs f, sc, σ, τ, ha, h => by
    simp only [OkF] at h
    obtain ⟨us, rfl, hne, hd, hf⟩ := h
    simp only [pF, Sat, pTs_map_var]
    exact block_sem I q us ha hd.2 (fun σ τ ha' => formula_sem hI f ha' hf)
theorem formulas_sem (hI : EqMeaning I) : ∀ (fs : List Formula) {sc : List Var} {σ τ : Asg D}, ScopeAgree sc σ τ →
    OkFs L real sc fs → (SatAll I (pFs fs) σ ↔ SatAll I fs τ) ∧ (SatAny I (pFs fs) σ ↔ SatAny I fs τ)
  | [], sc, σ, τ, ha, h => by simp [pFs, SatAll, SatAny]
  | f :: fs, sc, σ, τ, ha, h => by
    simp only [OkFs] at h
    have h1 := formula_sem hI f ha h.1
    have h2 := formulas_sem hI fs ha h.2
    simp [pFs, SatAll, SatAny, h1, h2.1, h2.2]
end

end

end Tarski

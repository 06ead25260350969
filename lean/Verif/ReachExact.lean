import Verif.ReachProgram
/-! The logic program derives nothing that is not reachable in the relaxed problem. -/
namespace Tarski

/-! ### Dropping negations -/

theorem dropNegs_eq_map {incl : Bool} (fs : List Formula) : dropNegs incl fs = fs.map (dropNeg incl) := by
  induction fs with
  | nil => rfl
  | cons f fs ih => simp [dropNegs, ih]

mutual
theorem dropNeg_flat {V : Var → Prop} {incl : Bool} : ∀ {f : Formula}, FlatF V f → FlatF V (dropNeg incl f)
  | .top, _ => trivial
  | .bot, _ => trivial
  | .atom _ _, h => h
  | .comp _ .and _, h => dropNegs_flat h
  | .comp _ .or _, h => dropNegs_flat h
  | .comp _ .not fs, h => by
    simp only [dropNeg]
    split
    · split
      · exact h
      · trivial
    · trivial
  | .quant _ _ _, h => ⟨h.1, dropNeg_flat h.2⟩
theorem dropNegs_flat {V : Var → Prop} {incl : Bool} : ∀ {fs : List Formula}, FlatFs V fs → FlatFs V (dropNegs incl fs)
  | [], _ => trivial
  | _ :: _, h => ⟨dropNeg_flat h.1, dropNegs_flat h.2⟩
end

mutual
theorem dropNeg_free {incl : Bool} {v : Var} : ∀ {f : Formula}, FreeF v (dropNeg incl f) → FreeF v f
  | .top, h => h
  | .bot, h => h
  | .atom _ _, h => h
  | .comp _ .and fs, h => dropNegs_free (fs := fs) h
  | .comp _ .or fs, h => dropNegs_free (fs := fs) h
  | .comp _ .not fs, h => by
    simp only [dropNeg] at h
    split at h
    · split at h
      · exact h
      · simp [FreeF] at h
    · simp [FreeF] at h
  | .quant _ _ f, h => ⟨dropNeg_free (f := f) h.1, h.2⟩
theorem dropNegs_free {incl : Bool} {v : Var} : ∀ {fs : List Formula}, FreeFs v (dropNegs incl fs) → FreeFs v fs
  | [], h => h
  | f :: fs, h => h.elim (fun h => .inl (dropNeg_free (f := f) h)) (fun h => .inr (dropNegs_free (fs := fs) h))
end

mutual
theorem dropNeg_bound {incl : Bool} {v : Var} : ∀ {f : Formula}, BoundF v (dropNeg incl f) → BoundF v f
  | .top, h => h
  | .bot, h => h
  | .atom _ _, h => h
  | .comp _ .and fs, h => dropNegs_bound (fs := fs) h
  | .comp _ .or fs, h => dropNegs_bound (fs := fs) h
  | .comp _ .not fs, h => by
    simp only [dropNeg] at h
    split at h
    · split at h
      · exact h
      · simp [BoundF] at h
    · simp [BoundF] at h
  | .quant _ _ f, h => h.elim .inl (fun h => .inr (dropNeg_bound (f := f) h))
theorem dropNegs_bound {incl : Bool} {v : Var} : ∀ {fs : List Formula}, BoundFs v (dropNegs incl fs) → BoundFs v fs
  | [], h => h
  | f :: fs, h => h.elim (fun h => .inl (dropNeg_bound (f := f) h)) (fun h => .inr (dropNegs_bound (fs := fs) h))
end

mutual
theorem dropNeg_noRebind {incl : Bool} : ∀ {f : Formula}, NoRebind f → NoRebind (dropNeg incl f)
  | .top, h => h
  | .bot, h => h
  | .atom _ _, h => h
  | .comp _ .and fs, h => dropNegs_noRebind (fs := fs) h
  | .comp _ .or fs, h => dropNegs_noRebind (fs := fs) h
  | .comp _ .not fs, h => by
    simp only [dropNeg]
    split
    · split
      · exact h
      · trivial
    · trivial
  | .quant _ _ f, h => ⟨h.1, fun v hv hb => h.2.1 v hv (dropNeg_bound hb), dropNeg_noRebind (f := f) h.2.2⟩
theorem dropNegs_noRebind {incl : Bool} : ∀ {fs : List Formula}, NoRebinds fs → NoRebinds (dropNegs incl fs)
  | [], h => h
  | f :: fs, h => ⟨dropNeg_noRebind (f := f) h.1, dropNegs_noRebind (fs := fs) h.2⟩
end

mutual
theorem dropNeg_idem {incl : Bool} : ∀ (f : Formula), dropNeg incl (dropNeg incl f) = dropNeg incl f
  | .top => rfl
  | .bot => rfl
  | .atom _ _ => rfl
  | .comp k .and fs => by simp only [dropNeg]; rw [dropNegs_idem fs]
  | .comp k .or fs => by simp only [dropNeg]; rw [dropNegs_idem fs]
  | .comp k .not fs => by
    simp only [dropNeg]
    split
    · rename_i hi
      split
      · simp [dropNeg, hi]
      · rfl
    · rfl
  | .quant _ _ f => by simp only [dropNeg]; rw [dropNeg_idem f]
theorem dropNegs_idem {incl : Bool} : ∀ (fs : List Formula), dropNegs incl (dropNegs incl fs) = dropNegs incl fs
  | [] => rfl
  | f :: fs => by simp only [dropNegs]; rw [dropNeg_idem f, dropNegs_idem fs]
end

mutual
theorem dropNeg_subF {incl : Bool} {s : Subst} : ∀ (f : Formula), dropNeg incl (subF s f) = subF s (dropNeg incl f)
  | .top => rfl
  | .bot => rfl
  | .atom _ _ => rfl
  | .comp k .and fs => by simp only [dropNeg, subF]; rw [dropNegs_subFs fs]
  | .comp k .or fs => by simp only [dropNeg, subF]; rw [dropNegs_subFs fs]
  | .comp k .not fs => by
    cases incl with
    | false => simp [dropNeg, subF]
    | true =>
      match fs with
      | [] => simp [dropNeg, subF, subFs]
      | [.top] => simp [dropNeg, subF, subFs]
      | [.bot] => simp [dropNeg, subF, subFs]
      | [.comp _ _ _] => simp [dropNeg, subF, subFs]
      | [.quant _ _ _] => simp [dropNeg, subF, subFs]
      | [.atom (.user _) _] => simp [dropNeg, subF, subFs]
      | [.atom (.cmp _) _] => simp [dropNeg, subF, subFs]
      | _ :: _ :: _ => simp [dropNeg, subF, subFs]
  | .quant _ _ f => by simp only [dropNeg, subF]; rw [dropNeg_subF f]
theorem dropNegs_subFs {incl : Bool} {s : Subst} : ∀ (fs : List Formula), dropNegs incl (subFs s fs) = subFs s (dropNegs incl fs)
  | [] => rfl
  | f :: fs => by simp only [dropNegs, subFs]; rw [dropNeg_subF f, dropNegs_subFs fs]
end

theorem dropNeg_tree {incl : Bool} {c : Conn} (hc : c ≠ .not) : ∀ (fs : List Formula),
    dropNeg incl (toBinaryTree c fs) = toBinaryTree c (fs.map (dropNeg incl))
  | [] => rfl
  | [a] => rfl
  | [a, b] => by cases c <;> simp_all [toBinaryTree, dropNeg, dropNegs]
  | a :: b :: d :: fs => by
    have ih := dropNeg_tree (incl := incl) hc (b :: d :: fs)
    simp only [List.map_cons] at ih ⊢
    cases c <;> simp_all [toBinaryTree, dropNeg, dropNegs]

theorem dropNeg_creator {incl : Bool} (q : Quant) (fs : List Formula) :
    dropNeg incl (creatorOf q fs) = creatorOf q (fs.map (dropNeg incl)) := by
  cases q with
  | «exists» =>
    simp only [creatorOf, lor, createCompound]
    match fs with
    | [] => rfl
    | [a] => rfl
    | a :: b :: fs => simpa using dropNeg_tree (c := .or) (by simp) (a :: b :: fs)
  | «forall» =>
    simp only [creatorOf, land, createCompound]
    match fs with
    | [] => rfl
    | [a] => rfl
    | a :: b :: fs => simpa using dropNeg_tree (c := .and) (by simp) (a :: b :: fs)

theorem expand_dropNeg {incl : Bool} {dom vs f q g} (h : expand dom vs f (creatorOf q) = .ok g) :
    expand dom vs (dropNeg incl f) (creatorOf q) = .ok (dropNeg incl g) := by
  unfold expand at h ⊢
  cases he : enumerateGroundings dom vs with
  | error e => simp [he] at h
  | ok t =>
    obtain ⟨card, syms, substs⟩ := t
    simp only [he] at h ⊢
    split at h
    · simp at h
    · rename_i h0
      simp only [Except.ok.injEq] at h
      subst h
      simp only [h0, if_false, Except.ok.injEq, dropNeg_creator, List.map_map]
      refine congrArg _ ?_
      apply List.map_congr_left
      intro values _
      exact (dropNeg_subF f).symm

/-- Truth of the formula without negations is monotone in the state. -/
theorem dropNeg_mono {V : Var → Prop} {dom : Domains} {R : CmpRel} {S S' : PState} {incl : Bool} (hS : ∀ p as, S p as → S' p as)
    (f : Formula) (hf : FlatF V f) (σ) (h : Sat (stateInterp dom R S) (dropNeg incl f) σ) :
    Sat (stateInterp dom R S') (dropNeg incl f) σ := by
  have := dropNeg_sat_mono (incl := incl) (R := R) (dom := dom) hS (dropNeg incl f) (dropNeg_flat hf) σ h
  rwa [dropNeg_idem] at this

theorem negAtomsL_iff {fs : List Formula} : NegAtomsL fs ↔ ∀ f ∈ fs, NegAtoms f := by
  induction fs with
  | nil => simp [NegAtomsL]
  | cons f fs ih => simp [NegAtomsL, ih]

mutual
theorem negAtoms_subF {s : Subst} : ∀ {f : Formula}, NegAtoms f → NegAtoms (subF s f)
  | .top, _ => trivial
  | .bot, _ => trivial
  | .atom _ _, _ => trivial
  | .comp _ .and fs, h => negAtomsL_subFs (fs := fs) h
  | .comp _ .or fs, h => negAtomsL_subFs (fs := fs) h
  | .comp _ .not fs, h => by
    obtain ⟨p, ts, rfl⟩ := h
    exact ⟨p, _, rfl⟩
  | .quant _ _ f, h => negAtoms_subF (f := f) h
theorem negAtomsL_subFs {s : Subst} : ∀ {fs : List Formula}, NegAtomsL fs → NegAtomsL (subFs s fs)
  | [], _ => trivial
  | f :: fs, h => ⟨negAtoms_subF (f := f) h.1, negAtomsL_subFs (fs := fs) h.2⟩
end

/-- Elimination of quantifiers does not change the meaning of the formula without negations. -/
theorem qe_dropNeg {V : Var → Prop} {dom : Domains} (hc : ConstDoms dom) (hd : GoodDom V dom) {incl : Bool} (mode : QEMode)
    (R : CmpRel) (S : PState) (f g : Formula) (h : removeQuantifiers dom mode f = .ok g) : FlatF V f → NoRebind f →
    (incl = true → NegAtoms f) → ∀ σ, Sat (stateInterp dom R S) (dropNeg incl g) σ ↔ Sat (stateInterp dom R S) (dropNeg incl f) σ := by
  have main := qe_induct dom mode (fun f g => (∀ p ts, f = .atom p ts → g = .atom p ts) ∧ (FlatF V f → NoRebind f →
    (incl = true → NegAtoms f) → ∀ σ, Sat (stateInterp dom R S) (dropNeg incl g) σ ↔ Sat (stateInterp dom R S) (dropNeg incl f) σ))
    ?_ ?_ ?_ ?_ ?_ ?_ f g h
  · exact main.2
  · exact ⟨by simp, fun _ _ _ _ => Iff.rfl⟩
  · exact ⟨by simp, fun _ _ _ _ => Iff.rfl⟩
  · exact fun p ts => ⟨fun _ _ h => h, fun _ _ _ _ => Iff.rfl⟩
  · intro k c fs gs he
    refine ⟨by simp, ?_⟩
    intro h1 h2 h3 σ
    cases c with
    | and =>
      simp only [dropNeg, Sat, dropNegs_eq_map, satAll_iff, List.mem_map, forall_exists_index, and_imp, forall_apply_eq_imp_iff₂]
      simp only [FlatF, flatFs_iff, NoRebind, noRebinds_iff, NegAtoms, negAtomsL_iff] at h1 h2 h3
      constructor
      · intro hg f hf
        obtain ⟨g, hg', hp⟩ := he.mem_left f hf
        exact (hp.2 (h1 f hf) (h2 f hf) (fun hi => h3 hi f hf) σ).mp (hg g hg')
      · intro hg g hg'
        obtain ⟨f, hf, hp⟩ := he.mem_right g hg'
        exact (hp.2 (h1 f hf) (h2 f hf) (fun hi => h3 hi f hf) σ).mpr (hg f hf)
    | or =>
      simp only [dropNeg, Sat, dropNegs_eq_map, satAny_iff, List.mem_map, exists_exists_and_eq_and]
      simp only [FlatF, flatFs_iff, NoRebind, noRebinds_iff, NegAtoms, negAtomsL_iff] at h1 h2 h3
      constructor
      · rintro ⟨g, hg', hg⟩
        obtain ⟨f, hf, hp⟩ := he.mem_right g hg'
        exact ⟨f, hf, (hp.2 (h1 f hf) (h2 f hf) (fun hi => h3 hi f hf) σ).mp hg⟩
      · rintro ⟨f, hf, hg⟩
        obtain ⟨g, hg', hp⟩ := he.mem_left f hf
        exact ⟨g, hg', (hp.2 (h1 f hf) (h2 f hf) (fun hi => h3 hi f hf) σ).mpr hg⟩
    | not =>
      cases incl with
      | false => simp [dropNeg, Sat]
      | true =>
        obtain ⟨p, ts, rfl⟩ := h3 rfl
        cases he with
        | cons _ g _ gs hp ht =>
          cases ht
          rw [hp.1 p ts rfl]
          cases p <;> simp [dropNeg, Sat]
  · intro q vs f g _ hp
    refine ⟨by simp, ?_⟩
    intro h1 h2 h3 σ
    simp only [dropNeg, Sat]
    exact quantBlock_congr _ q vs (fun σ => hp.2 h1.2 h2.2.2 h3 σ) σ
  · intro q vs f g' g _ he hp
    refine ⟨by simp, ?_⟩
    intro h1 h2 h3 σ
    obtain ⟨a, b, c, d⟩ := expand_flat hc hd he h1 h2
    have hneg : incl = true → NegAtoms g' := by
      intro hi
      obtain ⟨n, ls, _, _, rfl⟩ := expand_ok he
      have hq : q = .forall ∨ q = .exists := by cases q <;> simp
      have hf : NegAtoms f := h3 hi
      have hall : ∀ x ∈ (cart ls).map (fun values => subF (createSubst vs values) f), NegAtoms x := by
        intro x hx
        obtain ⟨values, _, rfl⟩ := List.mem_map.mp hx
        exact negAtoms_subF hf
      revert hall
      generalize (cart ls).map (fun values => subF (createSubst vs values) f) = fs
      intro hall
      cases q with
      | «exists» =>
        simp only [creatorOf, lor, createCompound]
        split
        · trivial
        · split
          · exact hall _ (by simp)
          · simp only [Bool.false_eq_true, if_false]
            exact tree_all trivial (fun a b ha hb => ⟨ha, hb, trivial⟩) _ hall
      | «forall» =>
        simp only [creatorOf, land, createCompound]
        split
        · trivial
        · split
          · exact hall _ (by simp)
          · simp only [Bool.false_eq_true, if_false]
            exact tree_all trivial (fun a b ha hb => ⟨ha, hb, trivial⟩) _ hall
    rw [hp.2 a b hneg σ]
    have hdq : FlatF V (.quant q vs (dropNeg incl f)) := ⟨h1.1, dropNeg_flat h1.2⟩
    exact (expand_spec (mode := mode) hc (flatF_varBinders hdq)
      (dropNeg_noRebind (f := .quant q vs f) h2) (expand_dropNeg he)).2.2.1 String _ (stateInterp_domOK hc R S) σ

/-! ### Closed existential subformulas -/

theorem closedExs_iff {U : Var → Prop} {fs : List Formula} : ClosedExs U fs ↔ ∀ f ∈ fs, ClosedEx U f := by
  induction fs with
  | nil => simp [ClosedExs]
  | cons f fs ih => simp [ClosedExs, ih]

mutual
theorem closedEx_subF {s : Subst} (hs : KeysVar s) (hg : GoodVals s) : ∀ {U U' : Var → Prop} {f : Formula},
    VarBindersF f → (∀ v, BoundF v f → Fresh s v) → (∀ v, U v → U' v ∨ ∃ kv ∈ s, kv.1 = Term.var v) → ClosedEx U f →
    ClosedEx U' (subF s f)
  | U, U', .top, _, _, _, _ => by simp [subF, ClosedEx]
  | U, U', .bot, _, _, _, _ => by simp [subF, ClosedEx]
  | U, U', .atom _ _, _, _, _, _ => by simp [subF, ClosedEx]
  | U, U', .comp _ _ fs, hb, hf, hU, h => by
    simp only [subF, ClosedEx]
    simp only [ClosedEx] at h
    exact closedExs_subFs hs hg (fs := fs) hb hf hU h
  | U, U', .quant .exists vs f, hb, hf, hU, h => by
    simp only [subF, ClosedEx]
    rw [subTs_binders hb.1 (fun v hv => hf v (Or.inl hv))]
    refine ⟨?_, closedEx_subF hs hg hb.2 (fun v hv => hf v (Or.inr hv)) hU h.2⟩
    intro v hv
    rcases freeF_subF hs v f hb.2 (fun v hv => hf v (Or.inr hv)) hv with ⟨a, b⟩ | ⟨kv, a, b⟩
    · rcases h.1 v a with g | g
      · exact .inl g
      · rcases hU v g with g | ⟨kv, e1, e2⟩
        · exact .inr g
        · exact absurd e2 (b kv e1)
    · obtain ⟨n, so, e⟩ := hg.consts kv a
      rw [e] at b
      simp [FreeT] at b
  | U, U', .quant .forall vs f, hb, hf, hU, h => by
    simp only [subF, ClosedEx]
    rw [subTs_binders hb.1 (fun v hv => hf v (Or.inl hv))]
    refine closedEx_subF hs hg hb.2 (fun v hv => hf v (Or.inr hv)) ?_ h
    rintro v (hv | hv)
    · rcases hU v hv with g | g
      · exact .inl (.inl g)
      · exact .inr g
    · exact .inl (.inr hv)
theorem closedExs_subFs {s : Subst} (hs : KeysVar s) (hg : GoodVals s) : ∀ {U U' : Var → Prop} {fs : List Formula},
    VarBindersFs fs → (∀ v, BoundFs v fs → Fresh s v) → (∀ v, U v → U' v ∨ ∃ kv ∈ s, kv.1 = Term.var v) → ClosedExs U fs →
    ClosedExs U' (subFs s fs)
  | U, U', [], _, _, _, _ => by simp [subFs, ClosedExs]
  | U, U', f :: fs, hb, hf, hU, h =>
    ⟨closedEx_subF hs hg hb.1 (fun v hv => hf v (Or.inl hv)) hU h.1,
      closedExs_subFs hs hg hb.2 (fun v hv => hf v (Or.inr hv)) hU h.2⟩
end

theorem qe_closedEx {V : Var → Prop} {dom : Domains} (hc : ConstDoms dom) (hd : GoodDom V dom) (f g : Formula)
    (h : removeQuantifiers dom .forall f = .ok g) : FlatF V f → NoRebind f → ∀ U, ClosedEx U f → ClosedEx U g := by
  have main := qe_induct dom .forall (fun f g => FlatF V f → NoRebind f → (∀ v, FreeF v g → FreeF v f) ∧
    ∀ U, ClosedEx U f → ClosedEx U g) ?_ ?_ ?_ ?_ ?_ ?_ f g h
  · exact fun h1 h2 => (main h1 h2).2
  · exact fun _ _ => ⟨fun _ h => h, fun _ h => h⟩
  · exact fun _ _ => ⟨fun _ h => h, fun _ h => h⟩
  · exact fun _ _ _ _ => ⟨fun _ h => h, fun _ h => h⟩
  · intro k c fs gs he h1 h2
    simp only [FlatF, flatFs_iff, NoRebind, noRebinds_iff, FreeF, freeFs_iff, ClosedEx, closedExs_iff] at h1 h2 ⊢
    refine ⟨?_, ?_⟩
    · rintro v ⟨g, hg, hv⟩
      obtain ⟨f, hf, hp⟩ := he.mem_right g hg
      exact ⟨f, hf, (hp (h1 f hf) (h2 f hf)).1 v hv⟩
    · intro U hU g hg
      obtain ⟨f, hf, hp⟩ := he.mem_right g hg
      exact (hp (h1 f hf) (h2 f hf)).2 U (hU f hf)
  · intro q vs f g hq hp h1 h2
    obtain ⟨a, b⟩ := hp h1.2 h2.2.2
    refine ⟨fun v hv => ⟨a v hv.1, hv.2⟩, ?_⟩
    intro U hU
    cases q with
    | «forall» => simp [QEMode.elim] at hq
    | «exists» =>
      simp only [ClosedEx] at hU ⊢
      exact ⟨fun v hv => hU.1 v (a v hv), b U hU.2⟩
  · intro q vs f g' g hq he hp h1 h2
    obtain ⟨a, b, c, d⟩ := expand_flat hc hd he h1 h2
    obtain ⟨a', b'⟩ := hp a b
    refine ⟨fun v hv => c v (a' v hv), ?_⟩
    intro U hU
    refine b' U ?_
    cases q with
    | «exists» => simp [QEMode.elim] at hq
    | «forall» =>
      simp only [ClosedEx] at hU
      obtain ⟨n, ls, hel, hn, rfl⟩ := expand_ok he
      refine creator_all (P := ClosedEx U) trivial trivial (fun c a b ha hb => ⟨ha, hb, trivial⟩) .forall _ ?_
      intro x hx
      obtain ⟨values, hval, rfl⟩ := List.mem_map.mp hx
      obtain ⟨k1, k2, k3⟩ := expand_substs hc hd h1.1 hel hval
      have hfr : ∀ v, BoundF v f → Fresh (createSubst vs values) v := by
        intro v hv
        apply fresh_const k2.consts
        intro kv hkv hk
        exact h2.2.1 v (hk ▸ (List.of_mem_zip hkv).1) hv
      refine closedEx_subF k1 k2 (flatF_varBinders h1.2) hfr ?_ hU
      rintro v (hv | hv)
      · exact .inl hv
      · obtain ⟨kv, e1, e2⟩ := k3 _ hv
        exact .inr ⟨kv, e1, e2⟩

end Tarski

import Verif.Temporal
/-! Lemmas about temporal formulas. -/
namespace Tarski

mutual
theorem TF.induct {P : TF → Prop} (htop : P .top) (hbot : P .bot) (hatom : ∀ p ts, P (.atom p ts))
    (hcomp : ∀ c fs, (∀ f ∈ fs, P f) → P (.comp c fs)) (hquant : ∀ q vs f, P f → P (.quant q vs f)) : ∀ f, P f
  | .top => htop
  | .bot => hbot
  | .atom p ts => hatom p ts
  | .comp c fs => hcomp c fs (TF.inducts htop hbot hatom hcomp hquant fs)
  | .quant q vs f => hquant q vs f (TF.induct htop hbot hatom hcomp hquant f)
theorem TF.inducts {P : TF → Prop} (htop : P .top) (hbot : P .bot) (hatom : ∀ p ts, P (.atom p ts))
    (hcomp : ∀ c fs, (∀ f ∈ fs, P f) → P (.comp c fs)) (hquant : ∀ q vs f, P f → P (.quant q vs f)) :
    ∀ fs : List TF, ∀ f ∈ fs, P f
  | [] => by simp
  | g :: gs => by
    intro f hf
    rcases List.mem_cons.mp hf with h | h
    · rw [h]; exact TF.induct htop hbot hatom hcomp hquant g
    · exact TF.inducts htop hbot hatom hcomp hquant gs f h
end

theorem satLs_eq {D} (M : Nat → Interp D) (fs : List TF) (σ : Asg D) : SatLs M fs σ = fs.map (fun f => SatL M f σ) := by
  induction fs with
  | nil => simp [SatLs]
  | cons f fs ih => simp [SatLs, ih]

theorem subLs_eq (s : Subst) (fs : List TF) : subLs s fs = fs.map (subL s) := by
  induction fs with
  | nil => simp [subLs]
  | cons f fs ih => simp [subLs, ih]

theorem boundLs_iff (v : Var) (fs : List TF) : BoundLs v fs ↔ ∃ f ∈ fs, BoundL v f := by
  induction fs with
  | nil => simp [BoundLs]
  | cons f fs ih => simp [BoundLs, ih]

theorem varBindersLs_iff (fs : List TF) : VarBindersLs fs ↔ ∀ f ∈ fs, VarBindersL f := by
  induction fs with
  | nil => simp [VarBindersLs]
  | cons f fs ih => simp [VarBindersLs, ih]

theorem noRebindLs_iff (fs : List TF) : NoRebindLs fs ↔ ∀ f ∈ fs, NoRebindL f := by
  induction fs with
  | nil => simp [NoRebindLs]
  | cons f fs ih => simp [NoRebindLs, ih]

theorem tdepth_le {fs : List TF} {f} (h : f ∈ fs) : tdepth f ≤ tdepths fs := by
  induction fs with
  | nil => simp at h
  | cons g fs ih =>
    simp only [tdepths]
    rcases List.mem_cons.mp h with rfl | h
    · omega
    · have := ih h; omega

theorem tdepths_le {fs : List TF} {n} (h : ∀ f ∈ fs, tdepth f ≤ n) : tdepths fs ≤ n := by
  induction fs with
  | nil => simp [tdepths]
  | cons g fs ih =>
    have h1 := h g (by simp)
    have h2 := ih (fun f hf => h f (by simp [hf]))
    simp only [tdepths]; omega

theorem treeT_all {P : TF → Prop} (c : Conn) (htop : P .top) (hbot : P .bot)
    (h : ∀ a b, P a → P b → P (.comp (.bool c) [a, b])) (fs : List TF) (hfs : ∀ f ∈ fs, P f) : P (treeT c fs) := by
  induction fs with
  | nil => cases c <;> assumption
  | cons a fs ih =>
    match fs with
    | [] => exact hfs a (by simp)
    | b :: fs => exact h _ _ (hfs a (by simp)) (ih (fun f hf => hfs f (by simp [hf])))

theorem creatorT_all {P : TF → Prop} (htop : P .top) (hbot : P .bot)
    (h : ∀ c a b, P a → P b → P (.comp c [a, b])) (q : Quant) (fs : List TF) (hfs : ∀ f ∈ fs, P f) : P (creatorT q fs) := by
  cases q
  · exact treeT_all _ htop hbot (h _) fs hfs
  · exact treeT_all _ htop hbot (h _) fs hfs

theorem satL_tree {D} (M : Nat → Interp D) (c : Conn) (hc : c ≠ .not) (fs : List TF) (σ : Asg D) (t : Nat) :
    SatL M (treeT c fs) σ t ↔ connMeaning (.bool c) (SatLs M fs σ) t := by
  induction fs with
  | nil => cases c <;> simp_all [treeT, SatL, SatLs, connMeaning]
  | cons a fs ih =>
    match fs with
    | [] => cases c <;> simp_all [treeT, SatLs, connMeaning]
    | b :: fs =>
      simp only [treeT, SatL, SatLs] at ih ⊢
      cases c
      · simp only [connMeaning, List.mem_cons, List.not_mem_nil, or_false, forall_eq_or_imp, forall_eq] at ih ⊢
        exact and_congr Iff.rfl ih
      · simp only [connMeaning, List.mem_cons, List.not_mem_nil, or_false, exists_eq_or_imp, exists_eq_left] at ih ⊢
        exact or_congr Iff.rfl ih
      · exact absurd rfl hc

theorem satL_creator {D} (M : Nat → Interp D) (q : Quant) (fs : List TF) (σ : Asg D) (t : Nat) :
    SatL M (creatorT q fs) σ t ↔
      (match q with | .forall => ∀ f ∈ fs, SatL M f σ t | .exists => ∃ f ∈ fs, SatL M f σ t) := by
  cases q
  · simp [creatorT, satL_tree M .or (by simp) fs σ t, connMeaning, satLs_eq]
  · simp [creatorT, satL_tree M .and (by simp) fs σ t, connMeaning, satLs_eq]

theorem subL_depth (s : Subst) (f : TF) : tdepth (subL s f) = tdepth f := by
  induction f using TF.induct with
  | htop => rfl
  | hbot => rfl
  | hatom p ts => rfl
  | hcomp c fs ih =>
    simp only [subL, tdepth]
    induction fs with
    | nil => rfl
    | cons g fs ihl =>
      simp only [subLs, tdepths]
      rw [ih g (by simp), ihl (fun f hf => ih f (by simp [hf]))]
  | hquant q vs f ih => simp only [subL, tdepth, ih]

theorem updAsg_rigid {D} {M : Nat → Interp D} (hM : Rigid M) {s : Subst} (hc : ValsConst s) (t u : Nat) (σ : Asg D) :
    updAsg (M t) s σ = updAsg (M u) s σ := by
  funext v
  unfold updAsg Subst.visit
  cases hg : s.get? (.var v) with
  | none => simp [evalT]
  | some c =>
    obtain ⟨n, so, h⟩ := hc _ (get?_eq_some hg)
    simp only at h
    subst h
    simp [evalT, (hM t u).1]

theorem subL_sem {D} {M : Nat → Interp D} (hM : Rigid M) {s : Subst} (hs : KeysVar s) (hc : ValsConst s) (f : TF) :
    VarBindersL f → (∀ v, BoundL v f → Fresh s v) → ∀ σ t, SatL M (subL s f) σ t ↔ SatL M f (updAsg (M t) s σ) t := by
  induction f using TF.induct with
  | htop => intro _ _ σ t; simp [subL, SatL]
  | hbot => intro _ _ σ t; simp [subL, SatL]
  | hatom p ts => intro hb hf σ t; simp only [subL, SatL]; rw [subTs_sem (M t) hs ts hb hf σ]
  | hcomp c fs ih =>
    intro hb hf σ t
    simp only [subL, SatL]
    have : SatLs M (subLs s fs) σ = SatLs M fs (updAsg (M t) s σ) := by
      rw [satLs_eq, satLs_eq, subLs_eq, List.map_map]
      apply List.map_congr_left
      intro f hm
      funext u
      simp only [Function.comp]
      rw [updAsg_rigid hM hc t u]
      exact propext (ih f hm ((varBindersLs_iff fs).mp hb f hm) (fun v hv => hf v ((boundLs_iff v fs).mpr ⟨f, hm, hv⟩)) σ u)
    rw [this]
  | hquant q vs f ih =>
    intro hb hf σ t
    simp only [subL, SatL]
    have hvs : ∀ v, Term.var v ∈ vs → Fresh s v := fun v hv => hf v (Or.inl hv)
    rw [subTs_binders hb.1 hvs]
    exact quantBlock_upd (M t) s q (fun σ => ih hb.2 (fun v hv => hf v (Or.inr hv)) σ t) vs hvs σ

theorem subL_bound {s : Subst} (hs : KeysVar s) (hc : ValsConst s) (w : Var) (f : TF) : VarBindersL f → (∀ v, BoundL v f → Fresh s v) →
    BoundL w (subL s f) → BoundL w f := by
  induction f using TF.induct with
  | htop => intro _ _ h; exact h
  | hbot => intro _ _ h; exact h
  | hatom p ts => intro _ _ h; exact subTs_bound hs hc w ts h
  | hcomp c fs ih =>
    intro hb hf h
    simp only [subL, BoundL] at h ⊢
    rw [subLs_eq, boundLs_iff] at h
    obtain ⟨g, hg, h⟩ := h
    obtain ⟨f, hm, rfl⟩ := List.mem_map.mp hg
    exact (boundLs_iff w fs).mpr ⟨f, hm, ih f hm ((varBindersLs_iff fs).mp hb f hm)
      (fun v hv => hf v ((boundLs_iff v fs).mpr ⟨f, hm, hv⟩)) h⟩
  | hquant q vs f ih =>
    intro hb hf h
    simp only [subL, BoundL] at h ⊢
    rw [subTs_binders hb.1 (fun v hv => hf v (Or.inl hv))] at h
    exact h.imp id (ih hb.2 (fun v hv => hf v (Or.inr hv)))

theorem subL_ok {s : Subst} (hs : KeysVar s) (hc : ValsConst s) (f : TF) : VarBindersL f → (∀ v, BoundL v f → Fresh s v) → NoRebindL f →
    VarBindersL (subL s f) ∧ NoRebindL (subL s f) := by
  induction f using TF.induct with
  | htop => intro _ _ _; exact ⟨trivial, trivial⟩
  | hbot => intro _ _ _; exact ⟨trivial, trivial⟩
  | hatom p ts => intro hb hf _; exact ⟨subTs_varBinders hs hc ts hb hf, trivial⟩
  | hcomp c fs ih =>
    intro hb hf hr
    have h : ∀ f ∈ fs, VarBindersL (subL s f) ∧ NoRebindL (subL s f) := fun f hm =>
      ih f hm ((varBindersLs_iff fs).mp hb f hm) (fun v hv => hf v ((boundLs_iff v fs).mpr ⟨f, hm, hv⟩)) ((noRebindLs_iff fs).mp hr f hm)
    simp only [subL, VarBindersL, NoRebindL, subLs_eq]
    refine ⟨(varBindersLs_iff _).mpr ?_, (noRebindLs_iff _).mpr ?_⟩
    · intro g hg; obtain ⟨f, hm, rfl⟩ := List.mem_map.mp hg; exact (h f hm).1
    · intro g hg; obtain ⟨f, hm, rfl⟩ := List.mem_map.mp hg; exact (h f hm).2
  | hquant q vs f ih =>
    intro hb hf hr
    have h := ih hb.2 (fun v hv => hf v (Or.inr hv)) hr.2.2
    simp only [subL, VarBindersL, NoRebindL]
    rw [subTs_binders hb.1 (fun v hv => hf v (Or.inl hv))]
    exact ⟨⟨hb.1, h.1⟩, hr.1, fun v hv hbd => hr.2.1 v hv (subL_bound hs hc v f hb.2 (fun v hv => hf v (Or.inr hv)) hbd), h.2⟩

theorem expandT_ok {dom : Domains} {vs f q g} (h : expandT dom vs f q = .ok g) :
    ∃ n ls, enumLoop dom vs = .ok (n, ls) ∧ n ≠ 0 ∧ g = creatorT q ((cart ls).map (fun values => subL (createSubst vs values) f)) := by
  unfold expandT enumerateGroundings at h
  split at h
  · simp at h
  · rename_i card syms substs he
    split at he
    · simp at he
    · rename_i n ls hl
      simp only [Except.ok.injEq, Prod.mk.injEq] at he
      obtain ⟨rfl, rfl, rfl⟩ := he
      split at h
      · simp at h
      · simp only [Except.ok.injEq] at h
        exact ⟨_, _, hl, by assumption, h.symm⟩

theorem expandT_depth {dom : Domains} {vs f q g} (h : expandT dom vs f q = .ok g) : tdepth g ≤ tdepth f := by
  obtain ⟨n, ls, _, _, rfl⟩ := expandT_ok h
  apply creatorT_all (P := fun g => tdepth g ≤ tdepth f) (by simp [tdepth]) (by simp [tdepth])
  · intro c a b ha hb; simp only [tdepth, tdepths]; omega
  · intro g hg
    obtain ⟨v, _, rfl⟩ := List.mem_map.mp hg
    rw [subL_depth]
    exact Nat.le_refl _

theorem expandT_spec {dom : Domains} (hdom : ConstDoms dom) {q vs f g} (hb : VarBindersL (.quant q vs f)) (hr : NoRebindL (.quant q vs f))
    (h : expandT dom vs f q = .ok g) : VarBindersL g ∧ NoRebindL g ∧
    ∀ (D : Type) (M : Nat → Interp D), Rigid M → (∀ t, DomOK (M t) dom) → ∀ σ t, SatL M g σ t ↔ SatL M (.quant q vs f) σ t := by
  obtain ⟨n, ls, he, hn, rfl⟩ := expandT_ok h
  have hcc := cart_consts dom hdom vs n ls he
  have hk : ∀ values, KeysVar (createSubst vs values) := fun values => zip_keysVar hb.1
  have hval : ∀ values ∈ cart ls, ValsConst (createSubst vs values) := fun values hv => zip_valsConst (hcc values hv)
  have hfr : ∀ values ∈ cart ls, ∀ v, BoundL v f → Fresh (createSubst vs values) v := by
    intro values hv v hbd
    apply fresh_const (hval values hv)
    intro kv hkv he
    exact hr.2.1 v (he ▸ (List.of_mem_zip hkv).1) hbd
  have hok : ∀ g ∈ (cart ls).map (fun values => subL (createSubst vs values) f), VarBindersL g ∧ NoRebindL g := by
    intro g hg
    obtain ⟨values, hv, rfl⟩ := List.mem_map.mp hg
    exact subL_ok (hk _) (hval _ hv) f hb.2 (hfr _ hv) hr.2.2
  have hall := creatorT_all (P := fun g => VarBindersL g ∧ NoRebindL g) ⟨trivial, trivial⟩ ⟨trivial, trivial⟩
    (fun c a b ha hb => ⟨⟨ha.1, hb.1, trivial⟩, ha.2, hb.2, trivial⟩) q _ hok
  refine ⟨hall.1, hall.2, ?_⟩
  intro D M hM hI σ t
  rw [satL_creator, SatL, quantBlock_cart (M t) dom (hI t) hdom q _ vs hb.1 n ls he σ]
  have : ∀ values ∈ cart ls, (SatL M (subL (createSubst vs values) f) σ t ↔ SatL M f (updAsg (M t) (createSubst vs values) σ) t) :=
    fun values hv => subL_sem hM (hk _) (hval _ hv) f hb.2 (hfr _ hv) σ t
  cases q with
  | «forall» =>
    simp only [List.mem_map, forall_exists_index, and_imp, forall_apply_eq_imp_iff₂]
    exact forall₂_congr this
  | «exists» =>
    simp only [List.mem_map, exists_exists_and_eq_and]
    constructor
    · rintro ⟨v, hv, h⟩; exact ⟨v, hv, (this v hv).mp h⟩
    · rintro ⟨v, hv, h⟩; exact ⟨v, hv, (this v hv).mpr h⟩

theorem qeTs_ok {rec : TF → Except Err TF} {dom mode} {fs gs} (h : qeTs rec dom mode fs = .ok gs) :
    List.Forall₂ (fun f g => qeT rec dom mode f = .ok g) fs gs := by
  induction fs generalizing gs with
  | nil => simp [qeTs] at h; subst h; exact .nil
  | cons f fs ih =>
    simp only [qeTs] at h
    cases e1 : qeT rec dom mode f with
    | error e => rw [e1] at h; simp at h
    | ok g =>
      rw [e1] at h
      cases e2 : qeTs rec dom mode fs with
      | error e => rw [e2] at h; simp at h
      | ok gs' => rw [e2] at h; simp at h; subst h; exact .cons e1 (ih e2)

theorem qeT_step (dom : Domains) (mode : QEMode) (hdom : ConstDoms dom) (r : TF → Except Err TF)
    (hrec : ∀ g g', VarBindersL g → NoRebindL g → r g = .ok g' →
      ∀ (D : Type) (M : Nat → Interp D), Rigid M → (∀ t, DomOK (M t) dom) → ∀ σ t, SatL M g' σ t ↔ SatL M g σ t) (f : TF) :
    ∀ g, VarBindersL f → NoRebindL f → qeT r dom mode f = .ok g →
      ∀ (D : Type) (M : Nat → Interp D), Rigid M → (∀ t, DomOK (M t) dom) → ∀ σ t, SatL M g σ t ↔ SatL M f σ t := by
  induction f using TF.induct with
  | htop => intro g _ _ h; simp [qeT] at h; subst h; intros; rfl
  | hbot => intro g _ _ h; simp [qeT] at h; subst h; intros; rfl
  | hatom p ts => intro g _ _ h; simp [qeT] at h; subst h; intros; rfl
  | hcomp c fs ih =>
    intro g hb hr h D M hM hI σ t
    simp only [qeT] at h
    cases e : qeTs r dom mode fs with
    | error e' => rw [e] at h; simp at h
    | ok gs =>
      rw [e] at h; simp at h; subst h
      simp only [SatL]
      have hl := qeTs_ok e
      have : SatLs M gs σ = SatLs M fs σ := by
        rw [satLs_eq, satLs_eq]
        clear e
        simp only [VarBindersL, NoRebindL] at hb hr
        rw [varBindersLs_iff] at hb
        rw [noRebindLs_iff] at hr
        induction hl with
        | nil => rfl
        | cons h1 h2 ihl =>
          simp only [List.map_cons]
          rw [ihl (fun f hf => ih f (by simp [hf])) (fun f hf => hb f (by simp [hf])) (fun f hf => hr f (by simp [hf]))]
          congr 1
          funext u
          exact propext (ih _ (by simp) _ (hb _ (by simp)) (hr _ (by simp)) h1 D M hM hI σ u)
      rw [this]
  | hquant q vs f ih =>
    intro g hb hr h D M hM hI σ t
    simp only [qeT] at h
    split at h
    · cases he : expandT dom vs f q with
      | error e => rw [he] at h; simp at h
      | ok g' =>
        rw [he] at h
        obtain ⟨h1, h2, h3⟩ := expandT_spec hdom hb hr he
        rw [hrec g' g h1 h2 h D M hM hI σ t, h3 D M hM hI σ t]
    · cases e1 : qeT r dom mode f with
      | error e => rw [e1] at h; simp at h
      | ok g1 =>
        rw [e1] at h; simp at h; subst h
        simp only [SatL]
        exact quantBlock_congr (M t) q vs (fun τ => ih g1 hb.2 hr.2.2 e1 D M hM hI τ t) σ

theorem qeT_main (dom : Domains) (mode : QEMode) (hdom : ConstDoms dom) (n : Nat) :
    ∀ f g, VarBindersL f → NoRebindL f → qeTFuel dom mode n f = .ok g →
      ∀ (D : Type) (M : Nat → Interp D), Rigid M → (∀ t, DomOK (M t) dom) → ∀ σ t, SatL M g σ t ↔ SatL M f σ t := by
  induction n with
  | zero => exact fun f => qeT_step dom mode hdom _ (fun g g' _ _ h => by simp at h) f
  | succ n ih => exact fun f => qeT_step dom mode hdom _ ih f

theorem qeT_congr (dom : Domains) (mode : QEMode) (r1 r2 : TF → Except Err TF) (n : Nat)
    (h : ∀ g, tdepth g < n → r1 g = r2 g) (f : TF) : tdepth f ≤ n → qeT r1 dom mode f = qeT r2 dom mode f := by
  induction f using TF.induct with
  | htop => intro; simp [qeT]
  | hbot => intro; simp [qeT]
  | hatom p ts => intro; simp [qeT]
  | hcomp c fs ih =>
    intro hd
    have : qeTs r1 dom mode fs = qeTs r2 dom mode fs := by
      simp only [tdepth] at hd
      clear c
      induction fs with
      | nil => simp [qeTs]
      | cons f fs ihl =>
        simp only [tdepths] at hd
        simp only [qeTs]
        rw [ih f (by simp) (by omega), ihl (fun f hf => ih f (by simp [hf])) (by omega)]
    simp only [qeT, this]
  | hquant q vs f ih =>
    intro hd
    simp only [tdepth] at hd
    simp only [qeT]
    split
    · cases he : expandT dom vs f q with
      | error e => rfl
      | ok g => exact h g (by have := expandT_depth he; omega)
    · rw [ih (by omega)]

theorem qeTFuel_succ (dom : Domains) (mode : QEMode) (n : Nat) : ∀ f, tdepth f ≤ n → qeTFuel dom mode (n + 1) f = qeTFuel dom mode n f := by
  induction n with
  | zero => intro f hf; exact qeT_congr dom mode _ _ 0 (by simp) f hf
  | succ n ih => intro f hf; exact qeT_congr dom mode _ _ (n + 1) (fun g hg => ih g (by omega)) f hf

theorem qeTFuel_enough (dom : Domains) (mode : QEMode) (f : TF) (n : Nat) (h : tdepth f ≤ n) :
    qeTFuel dom mode n f = removeQuantifiersT dom mode f := by
  unfold removeQuantifiersT
  induction n with
  | zero => have : tdepth f = 0 := by omega
            rw [this]
  | succ n ih =>
    by_cases hn : tdepth f = n + 1
    · rw [hn]
    · rw [qeTFuel_succ dom mode n f (by omega), ih (by omega)]

/-- `removeQuantifiersT` satisfies the recursive equation of the Python function. -/
theorem removeQuantifiersT_eq (dom : Domains) (mode : QEMode) (f : TF) :
    removeQuantifiersT dom mode f = qeT (removeQuantifiersT dom mode) dom mode f := by
  rw [← qeTFuel_enough dom mode f (tdepth f + 1) (by omega)]
  exact qeT_congr dom mode _ _ (tdepth f + 1) (fun g hg => qeTFuel_enough dom mode g _ (by omega)) f (by omega)

theorem qeT_noQuant_step (dom : Domains) (mode : QEMode) (r : TF → Except Err TF)
    (hr : ∀ g h, r g = .ok h → NoQuantL mode.elim h) (f : TF) : ∀ g, qeT r dom mode f = .ok g → NoQuantL mode.elim g := by
  induction f using TF.induct with
  | htop => intro g h; simp [qeT] at h; subst h; exact .top
  | hbot => intro g h; simp [qeT] at h; subst h; exact .bot
  | hatom p ts => intro g h; simp [qeT] at h; subst h; exact .atom _ _
  | hcomp c fs ih =>
    intro g h
    simp only [qeT] at h
    cases e : qeTs r dom mode fs with
    | error e' => rw [e] at h; simp at h
    | ok gs =>
      rw [e] at h; simp at h; subst h
      refine .comp _ _ ?_
      have hl := qeTs_ok e
      clear e
      induction hl with
      | nil => simp
      | cons h1 h2 ihl =>
        intro g hg
        rcases List.mem_cons.mp hg with rfl | hg
        · exact ih _ (by simp) _ h1
        · exact ihl (fun f hf => ih f (by simp [hf])) g hg
  | hquant q vs f ih =>
    intro g h
    simp only [qeT] at h
    split at h
    · cases he : expandT dom vs f q with
      | error e => rw [he] at h; simp at h
      | ok g' => rw [he] at h; exact hr _ _ h
    · rename_i hq
      cases e1 : qeT r dom mode f with
      | error e' => rw [e1] at h; simp at h
      | ok g1 => rw [e1] at h; simp at h; subst h; exact .quant _ _ _ (by simpa using hq) (ih _ e1)

theorem qeT_noQuant (dom : Domains) (mode : QEMode) (n : Nat) : ∀ f g, qeTFuel dom mode n f = .ok g → NoQuantL mode.elim g := by
  induction n with
  | zero => exact fun f => qeT_noQuant_step dom mode _ (fun g h e => by simp at e) f
  | succ n ih => exact fun f => qeT_noQuant_step dom mode _ ih f

theorem nnfTs_ok {b : Bool} {fs r} (h : nnfTs b fs = .ok r) : ∀ f ∈ fs, ∃ r', nnfT b f = .ok r' := by
  induction fs generalizing r with
  | nil => simp
  | cons f fs ih =>
    simp only [nnfTs] at h
    cases e1 : nnfT b f with
    | error e => rw [e1] at h; simp at h
    | ok g =>
      rw [e1] at h
      cases e2 : nnfTs b fs with
      | error e => rw [e2] at h; simp at h
      | ok gs =>
        intro f' hf'
        rcases List.mem_cons.mp hf' with rfl | hf'
        · exact ⟨_, e1⟩
        · exact ih e2 f' hf'

theorem nnfTs_err {b : Bool} {fs e} (h : nnfTs b fs = .error e) : ∃ f ∈ fs, nnfT b f = .error e := by
  induction fs with
  | nil => simp [nnfTs] at h
  | cons f fs ih =>
    simp only [nnfTs] at h
    cases e1 : nnfT b f with
    | error e' => rw [e1] at h; simp at h; subst h; exact ⟨f, by simp, e1⟩
    | ok g =>
      rw [e1] at h
      cases e2 : nnfTs b fs with
      | error e' =>
        rw [e2] at h; simp at h; subst h
        obtain ⟨f', hf', h'⟩ := ih e2
        exact ⟨f', by simp [hf'], h'⟩
      | ok gs => rw [e2] at h; simp at h

theorem nnfT_spec (f : TF) : NotUnary f → ∀ b, (nnfT b f = .error .unexpected ∧ HasTemporal f) ∨ ((∃ r, nnfT b f = .ok r) ∧ ¬ HasTemporal f) := by
  induction f using TF.induct with
  | htop => intro _ b; exact .inr ⟨⟨_, rfl⟩, by nofun⟩
  | hbot => intro _ b; exact .inr ⟨⟨_, rfl⟩, by nofun⟩
  | hatom p ts => intro _ b; exact .inr ⟨⟨_, rfl⟩, by nofun⟩
  | hcomp c fs ih =>
    intro hw b
    obtain ⟨hn, hl⟩ : (c = .bool .not → fs.length = 1) ∧ ∀ f ∈ fs, NotUnary f := by
      cases hw with | comp _ _ h1 h2 => exact ⟨h1, h2⟩
    have hsub : ∀ b', (∃ f ∈ fs, nnfT b' f = .error .unexpected ∧ HasTemporal f) ∨ ∀ f ∈ fs, (∃ r, nnfT b' f = .ok r) ∧ ¬ HasTemporal f := by
      intro b'
      by_cases h : ∃ f ∈ fs, nnfT b' f = .error .unexpected ∧ HasTemporal f
      · exact .inl h
      · refine .inr fun f hf => ?_
        rcases ih f hf (hl f hf) b' with h' | h'
        · exact absurd ⟨f, hf, h'⟩ h
        · exact h'
    have hlist : ∀ c' : Conn, nnfT b (.comp c fs) = (match nnfTs b fs with
        | .error e => .error e
        | .ok r => .ok (r.map (.comp (.bool (if b then dualConn c' else c'))))) → c = .bool c' →
        (nnfT b (.comp c fs) = .error .unexpected ∧ HasTemporal (.comp c fs)) ∨ ((∃ r, nnfT b (.comp c fs) = .ok r) ∧ ¬ HasTemporal (.comp c fs)) := by
      intro c' heq hc'
      rw [heq]
      cases e : nnfTs b fs with
      | error e' =>
        obtain ⟨f, hf, h1⟩ := nnfTs_err e
        rcases ih f hf (hl f hf) b with h' | h'
        · rw [h1] at h'
          exact .inl ⟨h'.1, .sub _ _ f hf h'.2⟩
        · obtain ⟨⟨r, hr⟩, _⟩ := h'
          rw [h1] at hr; cases hr
      | ok r =>
        refine .inr ⟨⟨_, rfl⟩, ?_⟩
        rintro (⟨_, _, h⟩ | ⟨_, _, f, hf, h⟩ | _)
        · exact h c' hc'
        · rcases ih f hf (hl f hf) b with h' | h'
          · obtain ⟨r', hr'⟩ := nnfTs_ok e f hf
            rw [hr'] at h'; exact absurd h'.1 (by nofun)
          · exact h'.2 h
    cases c with
    | bool c =>
      cases c with
      | not =>
        obtain ⟨f, rfl⟩ : ∃ f, fs = [f] := List.length_eq_one_iff.mp (hn rfl)
        have := ih f (by simp) (hl f (by simp)) (!b)
        simp only [nnfT]
        rcases this with h | h
        · exact .inl ⟨h.1, .sub _ _ f (by simp) h.2⟩
        · refine .inr ⟨h.1, ?_⟩
          rintro (⟨_, _, h'⟩ | ⟨_, _, f', hf, h'⟩ | _)
          · exact h' _ rfl
          · simp at hf; subst hf; exact h.2 h'
      | and => exact hlist .and (by simp only [nnfT]; cases nnfTs b fs <;> rfl) rfl
      | or => exact hlist .or (by simp only [nnfT]; cases nnfTs b fs <;> rfl) rfl
    | next => exact .inl ⟨by simp [nnfT], .here _ _ (by simp)⟩
    | eventually => exact .inl ⟨by simp [nnfT], .here _ _ (by simp)⟩
    | always => exact .inl ⟨by simp [nnfT], .here _ _ (by simp)⟩
    | til => exact .inl ⟨by simp [nnfT], .here _ _ (by simp)⟩
    | release => exact .inl ⟨by simp [nnfT], .here _ _ (by simp)⟩
  | hquant q vs f ih =>
    intro hw b
    have hw' : NotUnary f := by cases hw with | quant _ _ _ h => exact h
    simp only [nnfT]
    rcases ih hw' b with ⟨h1, h2⟩ | ⟨⟨r, h1⟩, h2⟩
    · rw [h1]; exact .inl ⟨rfl, .under _ _ _ h2⟩
    · rw [h1]
      refine .inr ⟨⟨_, rfl⟩, ?_⟩
      rintro (_ | _ | ⟨_, _, _, h⟩)
      exact h2 h

theorem nnfTs_some {b : Bool} {fs gs} (h : nnfTs b fs = .ok (some gs)) : List.Forall₂ (fun f g => nnfT b f = .ok (some g)) fs gs := by
  induction fs generalizing gs with
  | nil => simp [nnfTs] at h; subst h; exact .nil
  | cons f fs ih =>
    simp only [nnfTs] at h
    cases e1 : nnfT b f with
    | error e => rw [e1] at h; simp at h
    | ok g =>
      rw [e1] at h
      cases e2 : nnfTs b fs with
      | error e => rw [e2] at h; simp at h
      | ok gs' =>
        rw [e2] at h
        cases g with
        | none => simp at h
        | some g =>
          cases gs' with
          | none => simp at h
          | some gs' => simp at h; subst h; exact .cons e1 (ih e2)

theorem nnfT_sem {D} (M : Nat → Interp D) (f : TF) : NotUnary f → ∀ b g, nnfT b f = .ok (some g) → ∀ σ t,
    SatL M g σ t ↔ (if b then ¬ SatL M f σ t else SatL M f σ t) := by
  induction f using TF.induct with
  | htop => intro _ b g h σ t; cases b <;> simp [nnfT] at h; subst h; simp
  | hbot => intro _ b g h σ t; cases b <;> simp [nnfT] at h; subst h; simp
  | hatom p ts => intro _ b g h σ t; cases b <;> simp [nnfT] at h <;> subst h <;> simp [SatL, SatLs, connMeaning]
  | hcomp c fs ih =>
    intro hw b g h σ t
    obtain ⟨hn, hl⟩ : (c = .bool .not → fs.length = 1) ∧ ∀ f ∈ fs, NotUnary f := by
      cases hw with | comp _ _ h1 h2 => exact ⟨h1, h2⟩
    have hlist : ∀ gs, nnfTs b fs = .ok (some gs) →
        ((∀ g ∈ gs, SatL M g σ t) ↔ ∀ f ∈ fs, if b then ¬ SatL M f σ t else SatL M f σ t) ∧
        ((∃ g ∈ gs, SatL M g σ t) ↔ ∃ f ∈ fs, if b then ¬ SatL M f σ t else SatL M f σ t) := by
      intro gs hgs
      have h2 := nnfTs_some hgs
      clear hgs h hn hw
      induction h2 with
      | nil => simp
      | cons h1 h2 ihl =>
        have h3 := ih _ (by simp) (hl _ (by simp)) b _ h1 σ t
        obtain ⟨h4, h5⟩ := ihl (fun f hf => ih f (by simp [hf])) (fun f hf => hl f (by simp [hf]))
        simp only [List.mem_cons, forall_eq_or_imp, exists_eq_or_imp]
        exact ⟨and_congr h3 h4, or_congr h3 h5⟩
    cases c with
    | bool c =>
      cases c with
      | not =>
        obtain ⟨f, rfl⟩ : ∃ f, fs = [f] := List.length_eq_one_iff.mp (hn rfl)
        simp only [nnfT] at h
        have := ih f (by simp) (hl f (by simp)) _ g h σ t
        cases b <;> simp_all [SatL, SatLs, connMeaning]
      | and =>
        simp only [nnfT] at h
        cases e : nnfTs b fs with
        | error e' => rw [e] at h; simp at h
        | ok r =>
          rw [e] at h
          cases r with
          | none => simp at h
          | some gs =>
            simp at h; subst h
            obtain ⟨h4, h5⟩ := hlist gs e
            cases b <;> simp_all [SatL, connMeaning, satLs_eq, dualConn]
      | or =>
        simp only [nnfT] at h
        cases e : nnfTs b fs with
        | error e' => rw [e] at h; simp at h
        | ok r =>
          rw [e] at h
          cases r with
          | none => simp at h
          | some gs =>
            simp at h; subst h
            obtain ⟨h4, h5⟩ := hlist gs e
            cases b <;> simp_all [SatL, connMeaning, satLs_eq, dualConn]
    | next => simp [nnfT] at h
    | eventually => simp [nnfT] at h
    | always => simp [nnfT] at h
    | til => simp [nnfT] at h
    | release => simp [nnfT] at h
  | hquant q vs f ih =>
    intro hw b g h σ t
    have hw' : NotUnary f := by cases hw with | quant _ _ _ h => exact h
    simp only [nnfT] at h
    cases e : nnfT b f with
    | error e' => rw [e] at h; simp at h
    | ok r =>
      rw [e] at h
      cases r with
      | none => simp at h
      | some g' =>
        simp at h; subst h
        have := ih hw' b g' e
        cases b
        · simp only [Bool.false_eq_true, if_false, SatL] at this ⊢
          exact quantBlock_congr (M t) q vs (fun τ => this τ t) σ
        · simp only [if_true, SatL] at this ⊢
          rw [quantBlock_neg]
          exact quantBlock_congr (M t) _ vs (fun τ => this τ t) σ

theorem firstOrder_sat {D} (M : Nat → Interp D) (f : TF) : ∀ f0, FirstOrder f f0 → ∀ σ t, SatL M f σ t ↔ Sat (M t) f0 σ := by
  induction f using TF.induct with
  | htop => rintro f0 (_ | _) σ t; simp [SatL, Sat]
  | hbot => rintro f0 (_ | _) σ t; simp [SatL, Sat]
  | hatom p ts => rintro f0 (_ | _) σ t; simp [SatL, Sat]
  | hcomp c fs ih =>
    intro f0 h σ t
    cases h with
    | comp k c _ gs hl =>
      have h1 : ∀ g ∈ gs, ∃ f ∈ fs, SatL M f σ t ↔ Sat (M t) g σ := by
        clear c k
        induction hl with
        | nil => simp
        | cons a b ihl =>
          intro g hg
          rcases List.mem_cons.mp hg with rfl | hg
          · exact ⟨_, by simp, ih _ (by simp) _ a σ t⟩
          · obtain ⟨f, hf, h⟩ := ihl (fun f hf => ih f (by simp [hf])) g hg
            exact ⟨f, by simp [hf], h⟩
      have h2 : ∀ f ∈ fs, ∃ g ∈ gs, SatL M f σ t ↔ Sat (M t) g σ := by
        clear c k h1
        induction hl with
        | nil => simp
        | cons a b ihl =>
          intro g hg
          rcases List.mem_cons.mp hg with rfl | hg
          · exact ⟨_, by simp, ih _ (by simp) _ a σ t⟩
          · obtain ⟨f, hf, h⟩ := ihl (fun f hf => ih f (by simp [hf])) g hg
            exact ⟨f, by simp [hf], h⟩
      have ha : (∀ a ∈ fs, SatL M a σ t) ↔ ∀ g ∈ gs, Sat (M t) g σ := by
        constructor
        · intro H g hg; obtain ⟨f, hf, e⟩ := h1 g hg; exact e.mp (H f hf)
        · intro H f hf; obtain ⟨g, hg, e⟩ := h2 f hf; exact e.mpr (H g hg)
      have ho : (∃ a ∈ fs, SatL M a σ t) ↔ ∃ g ∈ gs, Sat (M t) g σ := by
        constructor
        · rintro ⟨f, hf, H⟩; obtain ⟨g, hg, e⟩ := h2 f hf; exact ⟨g, hg, e.mp H⟩
        · rintro ⟨g, hg, H⟩; obtain ⟨f, hf, e⟩ := h1 g hg; exact ⟨f, hf, e.mpr H⟩
      cases c
      · simp only [SatL, Sat, connMeaning, satLs_eq, satAll_iff, List.forall_mem_map]; exact ha
      · simp only [SatL, Sat, connMeaning, satLs_eq, satAny_iff, List.mem_map, exists_exists_and_eq_and]; exact ho
      · simp only [SatL, Sat, connMeaning, satLs_eq, satAll_iff, List.forall_mem_map]; exact not_congr ha
  | hquant q vs f ih =>
    intro f0 h σ t
    cases h with
    | quant _ _ _ g h =>
      simp only [SatL, Sat]
      exact quantBlock_congr (M t) q vs (fun τ => ih g h τ t) σ

theorem evT_sound {D} (M : Nat → Interp D) (σ : Asg D) (t : Nat) (ev : PSym → List Term → Except Err Bool)
    (hev : ∀ p ts b, ev p ts = .ok b → ((M t).pred p (evalTs (M t) ts σ) ↔ b = true)) (f : TF) :
    NotUnary f → ∀ b, evT ev f = .ok b → (SatL M f σ t ↔ b = true) := by
  induction f using TF.induct with
  | htop => intro _ b h; simp [evT] at h; subst h; simp [SatL]
  | hbot => intro _ b h; simp [evT] at h; subst h; simp [SatL]
  | hatom p ts => intro _ b h; exact hev p ts b h
  | hcomp c fs ih =>
    intro hw b h
    obtain ⟨hn, hl⟩ : (c = .bool .not → fs.length = 1) ∧ ∀ f ∈ fs, NotUnary f := by
      cases hw with | comp _ _ h1 h2 => exact ⟨h1, h2⟩
    have ih' : ∀ f ∈ fs, ∀ b, evT ev f = .ok b → (SatL M f σ t ↔ b = true) := fun f hf => ih f hf (hl f hf)
    cases c with
    | bool c =>
      cases c with
      | not =>
        obtain ⟨f, rfl⟩ : ∃ f, fs = [f] := List.length_eq_one_iff.mp (hn rfl)
        simp only [evT] at h
        cases e : evT ev f with
        | error e' => rw [e] at h; simp at h
        | ok b' =>
          rw [e] at h
          have := ih' f (by simp) b' e
          simp only [Except.ok.injEq] at h
          rw [← h]
          simp [SatL, connMeaning, SatLs, this]
      | and =>
        simp only [evT] at h
        simp only [SatL, connMeaning, satLs_eq, List.forall_mem_map]
        clear hw hn hl ih
        induction fs with
        | nil => simp [evAllT] at h; subst h; simp
        | cons f fs ihl =>
          simp only [evAllT] at h
          cases e : evT ev f with
          | error e' => rw [e] at h; simp at h
          | ok b' =>
            rw [e] at h
            have h1 := ih' f (by simp) b' e
            cases b' with
            | true => simp only at h; have := ihl (fun f hf => ih' f (by simp [hf])) h; simp_all
            | false => simp at h; subst h; simp_all
      | or =>
        simp only [evT] at h
        simp only [SatL, connMeaning, satLs_eq, List.mem_map, exists_exists_and_eq_and]
        clear hw hn hl ih
        induction fs with
        | nil => simp [evAnyT] at h; subst h; simp
        | cons f fs ihl =>
          simp only [evAnyT] at h
          cases e : evT ev f with
          | error e' => rw [e] at h; simp at h
          | ok b' =>
            rw [e] at h
            have h1 := ih' f (by simp) b' e
            cases b' with
            | false => simp only at h; have := ihl (fun f hf => ih' f (by simp [hf])) h; simp_all
            | true => simp at h; subst h; simp_all
    | next => simp [evT] at h
    | eventually => simp [evT] at h
    | always => simp [evT] at h
    | til => simp [evT] at h
    | release => simp [evT] at h
  | hquant q vs f ih => intro _ b h; simp [evT] at h

end Tarski

import Verif.QE
import Verif.SubstLemmas
import Verif.Props.Constructors
import Mathlib.Tactic.Common
import Mathlib.Order.Basic
/-! Helper lemmas for C09, C10. -/
namespace Tarski

theorem cart_length {α} (ls : List (List α)) : (cart ls).length = (ls.map List.length).prod := by
  induction ls with
  | nil => simp [cart]
  | cons l ls ih =>
    simp only [cart, List.length_flatMap, List.length_map, ih, List.map_cons, List.prod_cons]
    clear ih
    induction l with
    | nil => simp
    | cons a l ihl => simp only [List.map_cons, List.sum_cons, ihl, List.length_cons]; rw [Nat.add_mul]; omega

theorem enumLoop_card (dom : Domains) (vs : List Term) (n ls) (h : enumLoop dom vs = .ok (n, ls)) :
    n = (ls.map List.length).prod := by
  induction vs generalizing n ls with
  | nil => simp [enumLoop] at h; obtain ⟨rfl, rfl⟩ := h; simp
  | cons t vs ih =>
    cases t with
    | const a b => exact ih n ls h
    | app f ts => simp [enumLoop] at h
    | ite a b c => simp [enumLoop] at h
    | var v =>
      simp only [enumLoop] at h
      split at h
      · simp at h
      · split at h
        · simp at h
        · rename_i h2
          simp only [Except.ok.injEq, Prod.mk.injEq] at h
          obtain ⟨rfl, rfl⟩ := h
          simp [ih _ _ h2]

/-- Values of a substitution are constants. -/
def ValsConst (s : Subst) : Prop := ∀ kv ∈ s, ∃ n so, kv.2 = Term.const n so

theorem visit_cons (v : Var) (c : Term) (s : Subst) (w : Var) :
    Subst.visit ((.var v, c) :: s) (.var w) =
      match s.get? (.var w) with
      | some t => t
      | none => if v = w then c else .var w := by
  simp only [Subst.visit, Subst.get?, List.reverse_cons, List.find?_append]
  cases h : List.find? (fun kv => kv.1 == Term.var w) s.reverse with
  | some x => simp
  | none =>
    by_cases hv : v = w
    · subst hv; simp
    · simp [hv]

theorem updAsg_cons {D} (I : Interp D) (v : Var) (n so) (s : Subst) (hs : ValsConst s) (σ : Asg D) :
    updAsg I ((.var v, .const n so) :: s) σ = updAsg I s (σ.set v (I.const n so)) := by
  funext w
  simp only [updAsg, visit_cons]
  cases h : s.get? (.var w) with
  | some t =>
    obtain ⟨n', so', he⟩ := hs _ (get?_eq_some h)
    simp only at he
    subst he
    simp [Subst.visit, h, evalT]
  | none =>
    by_cases hv : v = w
    · subst hv; simp [Subst.visit, h, evalT, Asg.set]
    · have : ¬ w = v := fun e => hv e.symm
      simp [Subst.visit, h, evalT, Asg.set, hv, this]

theorem cart_consts (dom : Domains) (hd : ConstDoms dom) (vs : List Term) (n ls)
    (h : enumLoop dom vs = .ok (n, ls)) : ∀ values ∈ cart ls, ∀ c ∈ values, ∃ n so, c = Term.const n so := by
  induction vs generalizing n ls with
  | nil => simp [enumLoop] at h; obtain ⟨rfl, rfl⟩ := h; simp [cart]
  | cons t vs ih =>
    cases t with
    | const a b => exact ih n ls h
    | app f ts => simp [enumLoop] at h
    | ite a b c => simp [enumLoop] at h
    | var v =>
      simp only [enumLoop] at h
      split at h
      · simp at h
      · rename_i cs hcs
        split at h
        · simp at h
        · rename_i h2
          simp only [Except.ok.injEq, Prod.mk.injEq] at h
          obtain ⟨rfl, rfl⟩ := h
          intro values hv c hc
          simp only [cart, List.mem_flatMap, List.mem_map] at hv
          obtain ⟨x, hx, vals, hvals, rfl⟩ := hv
          rcases List.mem_cons.mp hc with rfl | hc
          · exact hd _ _ hcs _ hx
          · exact ih _ _ h2 _ hvals _ hc

theorem zip_valsConst {vs values : List Term} (h : ∀ c ∈ values, ∃ n so, c = Term.const n so) :
    ValsConst (createSubst vs values) := by
  intro kv hkv
  exact h _ (List.of_mem_zip hkv).2

theorem zip_keysVar {vs values : List Term} (h : ∀ t ∈ vs, ∃ v, t = Term.var v) :
    KeysVar (createSubst vs values) := by
  intro kv hkv
  exact h _ (List.of_mem_zip hkv).1

theorem quantBlock_cart {D} (I : Interp D) (dom : Domains) (hI : DomOK I dom) (hc : ConstDoms dom)
    (q : Quant) (P : Asg D → Prop)
    (vs : List Term) (hv : ∀ t ∈ vs, ∃ v, t = Term.var v) (n ls) (h : enumLoop dom vs = .ok (n, ls)) :
    ∀ σ, quantBlock I q vs P σ ↔
      (match q with
      | .forall => ∀ values ∈ cart ls, P (updAsg I (createSubst vs values) σ)
      | .exists => ∃ values ∈ cart ls, P (updAsg I (createSubst vs values) σ)) := by
  induction vs generalizing n ls with
  | nil =>
    simp [enumLoop] at h; obtain ⟨rfl, rfl⟩ := h
    intro σ
    have : updAsg I (createSubst [] []) σ = σ := by
      funext v; simp [updAsg, createSubst, Subst.visit, Subst.get?, evalT]
    cases q <;> simp [quantBlock, cart, this]
  | cons t vs ih =>
    simp only [List.mem_cons, forall_eq_or_imp] at hv
    obtain ⟨⟨v, rfl⟩, hv⟩ := hv
    simp only [enumLoop] at h
    split at h
    · simp at h
    · rename_i cs hcs
      split at h
      · simp at h
      · rename_i m ls' h2
        simp only [Except.ok.injEq, Prod.mk.injEq] at h
        obtain ⟨rfl, rfl⟩ := h
        intro σ
        have ih := ih hv _ _ h2
        have hcc := cart_consts dom hc vs _ _ h2
        have hd := (hI _ _ hcs).2
        have hu : ∀ nm so values, values ∈ cart ls' →
            updAsg I (createSubst (.var v :: vs) (.const nm so :: values)) σ =
            updAsg I (createSubst vs values) (σ.set v (I.const nm so)) := by
          intro nm so values hval
          exact updAsg_cons I v nm so (createSubst vs values) (zip_valsConst (hcc values hval)) σ
        have hcm := (hI _ _ hcs).1
        cases q with
        | «forall» =>
          simp only [quantBlock, ih, cart, List.mem_flatMap, List.mem_map]
          constructor
          · rintro H values ⟨c, hcc, vals, hvals, rfl⟩
            obtain ⟨nm, so, rfl⟩ := hcm c hcc
            rw [hu nm so vals hvals]
            exact H _ ((hd _).mpr ⟨nm, so, hcc, rfl⟩) vals hvals
          · intro H d hdd vals hvals
            obtain ⟨nm, so, hmem, rfl⟩ := (hd d).mp hdd
            rw [← hu nm so vals hvals]
            exact H _ ⟨_, hmem, vals, hvals, rfl⟩
        | «exists» =>
          simp only [quantBlock, ih, cart, List.mem_flatMap, List.mem_map]
          constructor
          · rintro ⟨d, hdd, vals, hvals, H⟩
            obtain ⟨nm, so, hmem, rfl⟩ := (hd d).mp hdd
            exact ⟨_, ⟨_, hmem, vals, hvals, rfl⟩, by rw [hu nm so vals hvals]; exact H⟩
          · rintro ⟨values, ⟨c, hcc, vals, hvals, rfl⟩, H⟩
            obtain ⟨nm, so, rfl⟩ := hcm c hcc
            rw [hu nm so vals hvals] at H
            exact ⟨_, (hd _).mpr ⟨nm, so, hcc, rfl⟩, vals, hvals, H⟩

theorem sat_creator {D} (I : Interp D) (q : Quant) (fs : List Formula) (σ : Asg D) :
    Sat I (creatorOf q fs) σ ↔
      (match q with | .forall => ∀ f ∈ fs, Sat I f σ | .exists => ∃ f ∈ fs, Sat I f σ) := by
  cases q
  · exact C11_lor fs false I σ
  · exact C11_land fs false I σ

theorem tree_all {P : Formula → Prop} {c : Conn} (htop : P .top)
    (h : ∀ a b, P a → P b → P (.comp .tuple c [a, b])) (fs : List Formula) (hfs : ∀ f ∈ fs, P f) :
    P (toBinaryTree c fs) := by
  induction fs with
  | nil => exact htop
  | cons a fs ih =>
    simp only [List.mem_cons, forall_eq_or_imp] at hfs
    match fs with
    | [] => exact hfs.1
    | [b] => exact h _ _ hfs.1 (hfs.2 b (by simp))
    | b :: b' :: fs => exact h _ _ hfs.1 (ih hfs.2)

theorem creator_all {P : Formula → Prop} (htop : P .top) (hbot : P .bot)
    (h : ∀ c a b, P a → P b → P (.comp .tuple c [a, b])) (q : Quant) (fs : List Formula)
    (hfs : ∀ f ∈ fs, P f) : P (creatorOf q fs) := by
  cases q <;> simp only [creatorOf, land, lor, createCompound]
  all_goals
    split
    · assumption
    · split
      · exact hfs _ (by simp)
      · simp only [Bool.false_eq_true, if_false]
        exact tree_all htop (h _) _ hfs

theorem tree_all_inv {P : Formula → Prop} {c : Conn}
    (h : ∀ a b, P (.comp .tuple c [a, b]) → P a ∧ P b) (fs : List Formula) (hfs : P (toBinaryTree c fs)) :
    ∀ f ∈ fs, P f := by
  induction fs with
  | nil => simp
  | cons a fs ih =>
    match fs, ih, hfs with
    | [], _, hfs => simpa [toBinaryTree] using hfs
    | [b], _, hfs => simpa [toBinaryTree] using h a b (by simpa [toBinaryTree] using hfs)
    | b :: b' :: fs, ih, hfs =>
      rw [toBinaryTree] at hfs
      · have := h _ _ hfs
        intro f hf
        rcases List.mem_cons.mp hf with rfl | hf
        · exact this.1
        · exact ih this.2 f hf
      · simp
      · simp

theorem creator_all_inv {P : Formula → Prop}
    (h : ∀ c a b, P (.comp .tuple c [a, b]) → P a ∧ P b) (q : Quant) (fs : List Formula)
    (hfs : P (creatorOf q fs)) : ∀ f ∈ fs, P f := by
  cases q <;> simp only [creatorOf, land, lor, createCompound] at hfs
  all_goals
    split at hfs
    · rename_i he; simp at he; subst he; simp
    · split at hfs
      · simpa using hfs
      · simp only [Bool.false_eq_true, if_false] at hfs
        exact tree_all_inv (h _) _ hfs

mutual
theorem subF_qdepth (s : Subst) (f : Formula) : qdepth (subF s f) = qdepth f := by
  match f with
  | .top => rfl
  | .bot => rfl
  | .atom _ _ => simp [subF, qdepth]
  | .comp k c fs => simp only [subF, qdepth]; exact subFs_qdepths s fs
  | .quant q vs f => simp only [subF, qdepth]; rw [subF_qdepth s f]
theorem subFs_qdepths (s : Subst) (fs : List Formula) : qdepths (subFs s fs) = qdepths fs := by
  match fs with
  | [] => rfl
  | f :: fs => simp only [subFs, qdepths]; rw [subF_qdepth s f, subFs_qdepths s fs]
end

mutual
theorem subT_bound {s : Subst} (hs : KeysVar s) (hc : ValsConst s) (w : Var) (t : Term) (h : BoundT w (subT s t)) :
    BoundT w t := by
  match t with
  | .var v =>
    simp only [subT, Subst.visit] at h
    cases hg : s.get? (.var v) with
    | none => rw [hg] at h; exact h
    | some t =>
      rw [hg] at h
      obtain ⟨n, so, he⟩ := hc _ (get?_eq_some hg)
      simp only at he; subst he
      simp [BoundT] at h
  | .const n so => rw [subT, visit_nonvar hs (by simp)] at h; exact h
  | .app f ts => rw [subT, visit_nonvar hs (by simp)] at h; exact subTs_bound hs hc w ts h
  | .ite c a b =>
    rw [subT, visit_nonvar hs (by simp)] at h
    rcases h with h | h | h
    · exact Or.inl (subF_bound hs hc w c h)
    · exact Or.inr (Or.inl (subT_bound hs hc w a h))
    · exact Or.inr (Or.inr (subT_bound hs hc w b h))
theorem subTs_bound {s : Subst} (hs : KeysVar s) (hc : ValsConst s) (w : Var) (ts : List Term) (h : BoundTs w (subTs s ts)) :
    BoundTs w ts := by
  match ts with
  | [] => exact h
  | t :: ts =>
    rcases h with h | h
    · exact Or.inl (subT_bound hs hc w t h)
    · exact Or.inr (subTs_bound hs hc w ts h)
theorem subF_bound {s : Subst} (hs : KeysVar s) (hc : ValsConst s) (w : Var) (f : Formula) (h : BoundF w (subF s f)) :
    BoundF w f := by
  match f with
  | .top => exact h
  | .bot => exact h
  | .atom p ts => exact subTs_bound hs hc w ts h
  | .comp k c fs => exact subFs_bound hs hc w fs h
  | .quant q vs f =>
    rcases h with h | h
    · refine Or.inl ?_
      clear f
      induction vs with
      | nil => exact h
      | cons t vs ih =>
        rcases List.mem_cons.mp h with h | h
        · refine List.mem_cons.mpr (Or.inl ?_)
          match t with
          | .var v =>
            simp only [subT, Subst.visit] at h
            cases hg : s.get? (.var v) with
            | none => rw [hg] at h; exact h
            | some t =>
              rw [hg] at h
              obtain ⟨n, so, he⟩ := hc _ (get?_eq_some hg)
              simp only at he; subst he
              simp at h
          | .const n so => rw [subT, visit_nonvar hs (by simp)] at h; exact h
          | .app f ts => rw [subT, visit_nonvar hs (by simp)] at h; simp at h
          | .ite c a b => rw [subT, visit_nonvar hs (by simp)] at h; simp at h
        · exact List.mem_cons.mpr (Or.inr (ih h))
    · exact Or.inr (subF_bound hs hc w f h)
theorem subFs_bound {s : Subst} (hs : KeysVar s) (hc : ValsConst s) (w : Var) (fs : List Formula) (h : BoundFs w (subFs s fs)) :
    BoundFs w fs := by
  match fs with
  | [] => exact h
  | f :: fs =>
    rcases h with h | h
    · exact Or.inl (subF_bound hs hc w f h)
    · exact Or.inr (subFs_bound hs hc w fs h)
end

theorem fresh_const {s : Subst} (hc : ValsConst s) {v : Var} (h : ∀ kv ∈ s, kv.1 ≠ Term.var v) : Fresh s v :=
  fun kv hkv => ⟨h kv hkv, by obtain ⟨n, so, he⟩ := hc kv hkv; rw [he]; simp [FreeT]⟩

mutual
theorem subT_varBinders {s : Subst} (hs : KeysVar s) (hc : ValsConst s) (t : Term) (hb : VarBindersT t)
    (hf : ∀ v, BoundT v t → Fresh s v) : VarBindersT (subT s t) := by
  match t with
  | .var v =>
    simp only [subT, Subst.visit]
    cases hg : s.get? (.var v) with
    | none => exact hb
    | some t =>
      obtain ⟨n, so, he⟩ := hc _ (get?_eq_some hg)
      simp only at he; subst he
      simp [VarBindersT]
  | .const n so => rw [subT, visit_nonvar hs (by simp)]; exact hb
  | .app f ts => rw [subT, visit_nonvar hs (by simp)]; exact subTs_varBinders hs hc ts hb hf
  | .ite c a b =>
    rw [subT, visit_nonvar hs (by simp)]
    exact ⟨subF_varBinders hs hc c hb.1 (fun v hv => hf v (Or.inl hv)),
      subT_varBinders hs hc a hb.2.1 (fun v hv => hf v (Or.inr (Or.inl hv))),
      subT_varBinders hs hc b hb.2.2 (fun v hv => hf v (Or.inr (Or.inr hv)))⟩
theorem subTs_varBinders {s : Subst} (hs : KeysVar s) (hc : ValsConst s) (ts : List Term) (hb : VarBindersTs ts)
    (hf : ∀ v, BoundTs v ts → Fresh s v) : VarBindersTs (subTs s ts) := by
  match ts with
  | [] => exact hb
  | t :: ts =>
    exact ⟨subT_varBinders hs hc t hb.1 (fun v hv => hf v (Or.inl hv)),
      subTs_varBinders hs hc ts hb.2 (fun v hv => hf v (Or.inr hv))⟩
theorem subF_varBinders {s : Subst} (hs : KeysVar s) (hc : ValsConst s) (f : Formula) (hb : VarBindersF f)
    (hf : ∀ v, BoundF v f → Fresh s v) : VarBindersF (subF s f) := by
  match f with
  | .top => exact hb
  | .bot => exact hb
  | .atom p ts => exact subTs_varBinders hs hc ts hb hf
  | .comp k c fs => exact subFs_varBinders hs hc fs hb hf
  | .quant q vs f =>
    simp only [subF, VarBindersF]
    rw [subTs_binders hb.1 (fun v hv => hf v (Or.inl hv))]
    exact ⟨hb.1, subF_varBinders hs hc f hb.2 (fun v hv => hf v (Or.inr hv))⟩
theorem subFs_varBinders {s : Subst} (hs : KeysVar s) (hc : ValsConst s) (fs : List Formula) (hb : VarBindersFs fs)
    (hf : ∀ v, BoundFs v fs → Fresh s v) : VarBindersFs (subFs s fs) := by
  match fs with
  | [] => exact hb
  | f :: fs =>
    exact ⟨subF_varBinders hs hc f hb.1 (fun v hv => hf v (Or.inl hv)),
      subFs_varBinders hs hc fs hb.2 (fun v hv => hf v (Or.inr hv))⟩
end

mutual
theorem subF_noRebind {s : Subst} (hs : KeysVar s) (hc : ValsConst s) (f : Formula) (hb : VarBindersF f)
    (hf : ∀ v, BoundF v f → Fresh s v) (hr : NoRebind f) : NoRebind (subF s f) := by
  match f with
  | .top => exact hr
  | .bot => exact hr
  | .atom p ts => trivial
  | .comp k c fs => exact subFs_noRebinds hs hc fs hb hf hr
  | .quant q vs f =>
    simp only [subF, NoRebind]
    rw [subTs_binders hb.1 (fun v hv => hf v (Or.inl hv))]
    exact ⟨hr.1, fun v hv hbd => hr.2.1 v hv (subF_bound hs hc v f hbd),
      subF_noRebind hs hc f hb.2 (fun v hv => hf v (Or.inr hv)) hr.2.2⟩
theorem subFs_noRebinds {s : Subst} (hs : KeysVar s) (hc : ValsConst s) (fs : List Formula) (hb : VarBindersFs fs)
    (hf : ∀ v, BoundFs v fs → Fresh s v) (hr : NoRebinds fs) : NoRebinds (subFs s fs) := by
  match fs with
  | [] => exact hr
  | f :: fs =>
    exact ⟨subF_noRebind hs hc f hb.1 (fun v hv => hf v (Or.inl hv)) hr.1,
      subFs_noRebinds hs hc fs hb.2 (fun v hv => hf v (Or.inr hv)) hr.2⟩
end

theorem subFs_eq_map (s : Subst) (fs : List Formula) : subFs s fs = fs.map (subF s) := by
  induction fs with
  | nil => rfl
  | cons f fs ih => simp [subFs, ih]

theorem subF_bad {s : Subst} {dom : Domains} {el : Quant → Bool} (f : Formula) :
    VarBindersF f → (∀ v, BoundF v f → Fresh s v) → (BadQuant dom el (subF s f) ↔ BadQuant dom el f) := by
  have hF : ∀ fs : List Formula, ∀ f ∈ fs, (VarBindersFs fs → VarBindersF f) ∧ ∀ v, BoundF v f → BoundFs v fs := by
    intro fs
    induction fs with
    | nil => simp
    | cons g fs ih =>
      intro f hf
      rcases List.mem_cons.mp hf with rfl | hf
      · exact ⟨fun h => h.1, fun v h => Or.inl h⟩
      · exact ⟨fun h => (ih f hf).1 h.2, fun v h => Or.inr ((ih f hf).2 v h)⟩
  induction f using Formula.induct with
  | htop => intros; rfl
  | hbot => intros; rfl
  | hatom p ts => intros; constructor <;> (intro h; cases h)
  | hcomp k c fs ih =>
    intro hb hf
    simp only [subF, subFs_eq_map]
    constructor
    · rintro (_ | _ | ⟨_, _, _, g, hg, h⟩)
      obtain ⟨g', hg', rfl⟩ := List.mem_map.mp hg
      exact .comp _ _ _ g' hg' ((ih g' hg' ((hF fs g' hg').1 hb) (fun v hv => hf v ((hF fs g' hg').2 v hv))).mp h)
    · rintro (_ | _ | ⟨_, _, _, g, hg, h⟩)
      exact .comp _ _ _ _ (List.mem_map.mpr ⟨g, hg, rfl⟩)
        ((ih g hg ((hF fs g hg).1 hb) (fun v hv => hf v ((hF fs g hg).2 v hv))).mpr h)
  | hquant q vs f ih =>
    intro hb hf
    simp only [subF]
    rw [subTs_binders hb.1 (fun v hv => hf v (Or.inl hv))]
    have ih := ih hb.2 (fun v hv => hf v (Or.inr hv))
    constructor
    · rintro (⟨_, _, _, v, h1, h2, h3⟩ | ⟨_, _, _, h⟩ | _)
      · exact .here _ _ _ v h1 h2 h3
      · exact .under _ _ _ (ih.mp h)
    · rintro (⟨_, _, _, v, h1, h2, h3⟩ | ⟨_, _, _, h⟩ | _)
      · exact .here _ _ _ v h1 h2 h3
      · exact .under _ _ _ (ih.mpr h)

theorem qdepth_le_qdepths {fs : List Formula} {f} (h : f ∈ fs) : qdepth f ≤ qdepths fs := by
  induction fs with
  | nil => simp at h
  | cons g fs ih =>
    simp only [qdepths]
    rcases List.mem_cons.mp h with rfl | h
    · omega
    · have := ih h; omega

theorem varBindersFs_mem {fs : List Formula} (h : VarBindersFs fs) : ∀ f ∈ fs, VarBindersF f := by
  induction fs with
  | nil => simp
  | cons g fs ih =>
    intro f hf
    rcases List.mem_cons.mp hf with rfl | hf
    · exact h.1
    · exact ih h.2 f hf

theorem noRebinds_mem {fs : List Formula} (h : NoRebinds fs) : ∀ f ∈ fs, NoRebind f := by
  induction fs with
  | nil => simp
  | cons g fs ih =>
    intro f hf
    rcases List.mem_cons.mp hf with rfl | hf
    · exact h.1
    · exact ih h.2 f hf

theorem creator_depth (n : Nat) (q : Quant) (fs : List Formula) (h : ∀ f ∈ fs, qdepth f ≤ n) :
    qdepth (creatorOf q fs) ≤ n :=
  creator_all (P := fun f => qdepth f ≤ n) (by simp [qdepth]) (by simp [qdepth])
    (by intro c a b ha hb; simp only [qdepth, qdepths]; omega) q fs h

theorem expand_ok {dom : Domains} {vs f q g} (h : expand dom vs f (creatorOf q) = .ok g) :
    ∃ n ls, enumLoop dom vs = .ok (n, ls) ∧ n ≠ 0 ∧
      g = creatorOf q ((cart ls).map (fun values => subF (createSubst vs values) f)) := by
  unfold expand enumerateGroundings at h
  split at h
  · simp at h
  · rename_i card syms substs he
    split at he
    · simp at he
    · rename_i n ls hl
      simp only [Except.ok.injEq, Prod.mk.injEq] at he
      obtain ⟨rfl, rfl, rfl⟩ := he
      split at h
      · simp at h
      · simp only [Except.ok.injEq] at h
        exact ⟨_, _, hl, by assumption, h.symm⟩

theorem expand_depth {dom : Domains} {vs f q g} (h : expand dom vs f (creatorOf q) = .ok g) :
    qdepth g ≤ qdepth f := by
  obtain ⟨n, ls, _, _, rfl⟩ := expand_ok h
  apply creator_depth
  intro g hg
  obtain ⟨v, _, rfl⟩ := List.mem_map.mp hg
  rw [subF_qdepth]
  exact Nat.le_refl _

/-- Unrolling depth: the result of `qeWith` depends on `rec` only below the quantifier depth. -/
theorem qeWith_congr (dom : Domains) (mode : QEMode) (r1 r2 : Formula → Except Err Formula) (n : Nat)
    (h : ∀ g, qdepth g < n → r1 g = r2 g) (f : Formula) :
    qdepth f ≤ n → qeWith r1 dom mode f = qeWith r2 dom mode f := by
  induction f using Formula.induct with
  | htop => intro; simp [qeWith]
  | hbot => intro; simp [qeWith]
  | hatom p ts => intro; simp [qeWith]
  | hcomp k c fs ih =>
    intro hd
    have : qesWith r1 dom mode fs = qesWith r2 dom mode fs := by
      simp only [qdepth] at hd
      clear k c
      induction fs with
      | nil => simp [qesWith]
      | cons f fs ihl =>
        simp only [qdepths] at hd
        simp only [qesWith]
        rw [ih f (by simp) (by omega), ihl (fun f hf => ih f (by simp [hf])) (by omega)]
    simp only [qeWith, this]
  | hquant q vs f ih =>
    intro hd
    simp only [qdepth] at hd
    simp only [qeWith]
    split
    · cases he : expand dom vs f (creatorOf q) with
      | error e => rfl
      | ok g => exact h g (by have := expand_depth he; omega)
    · rw [ih (by omega)]

theorem qeFuel_succ (dom : Domains) (mode : QEMode) (n : Nat) :
    ∀ f, qdepth f ≤ n → qeFuel dom mode (n + 1) f = qeFuel dom mode n f := by
  induction n with
  | zero =>
    intro f hf
    exact qeWith_congr dom mode _ _ 0 (by simp) f hf
  | succ n ih =>
    intro f hf
    exact qeWith_congr dom mode _ _ (n + 1) (fun g hg => ih g (by omega)) f hf

/-- The unrolling bound used by `removeQuantifiers` does not matter: any larger one gives the same
result, so the python recursion terminates with this result. -/
theorem qeFuel_enough (dom : Domains) (mode : QEMode) (f : Formula) (n : Nat) (h : qdepth f ≤ n) :
    qeFuel dom mode n f = removeQuantifiers dom mode f := by
  unfold removeQuantifiers
  induction n with
  | zero => have : qdepth f = 0 := by omega
            rw [this]
  | succ n ih =>
    by_cases hn : qdepth f = n + 1
    · rw [hn]
    · rw [qeFuel_succ dom mode n f (by omega), ih (by omega)]

theorem qeFuel_eq_expand (dom : Domains) (mode : QEMode) (n : Nat) (f : Formula) (h : qdepth f ≤ n) :
    qeFuel dom mode n f = qeWith (removeQuantifiers dom mode) dom mode f := by
  cases n with
  | zero =>
    exact qeWith_congr dom mode _ _ 0 (by simp) f h
  | succ n =>
    exact qeWith_congr dom mode _ _ (n + 1) (fun g hg => qeFuel_enough dom mode g n (by omega)) f h

/-- `removeQuantifiers` satisfies the recursive equation of the python function. -/
theorem removeQuantifiers_eq (dom : Domains) (mode : QEMode) (f : Formula) :
    removeQuantifiers dom mode f = qeWith (removeQuantifiers dom mode) dom mode f :=
  qeFuel_eq_expand dom mode _ f (Nat.le_refl _)

/-- What the result should satisfy. -/
def QESpec (dom : Domains) (mode : QEMode) (f : Formula) : Except Err Formula → Prop
  | .ok g => (∀ (D : Type) (I : Interp D), DomOK I dom → ∀ σ, Sat I g σ ↔ Sat I f σ) ∧ ¬ BadQuant dom mode.elim f
  | .error _ => BadQuant dom mode.elim f

def QEsSpec (dom : Domains) (mode : QEMode) (fs : List Formula) : Except Err (List Formula) → Prop
  | .ok gs => (∀ (D : Type) (I : Interp D), DomOK I dom → ∀ σ, (SatAll I gs σ ↔ SatAll I fs σ) ∧ (SatAny I gs σ ↔ SatAny I fs σ))
      ∧ ∀ f ∈ fs, ¬ BadQuant dom mode.elim f
  | .error _ => ∃ f ∈ fs, BadQuant dom mode.elim f

theorem enumLoop_error {dom : Domains} {vs e} (hv : ∀ t ∈ vs, ∃ v, t = Term.var v)
    (h : enumLoop dom vs = .error e) : ∃ v, Term.var v ∈ vs ∧ ∃ e, dom v.sort = .error e := by
  induction vs with
  | nil => simp [enumLoop] at h
  | cons t vs ih =>
    simp only [List.mem_cons, forall_eq_or_imp] at hv
    obtain ⟨⟨v, rfl⟩, hv⟩ := hv
    simp only [enumLoop] at h
    split at h
    · rename_i e he
      exact ⟨v, by simp, _, he⟩
    · split at h
      · rename_i he
        simp only [Except.error.injEq] at h; subst h
        obtain ⟨w, h1, h2⟩ := ih hv he
        exact ⟨w, by simp [h1], h2⟩
      · simp at h

theorem enumLoop_ok {dom : Domains} {vs n ls} (hv : ∀ t ∈ vs, ∃ v, t = Term.var v)
    (h : enumLoop dom vs = .ok (n, ls)) :
    (∀ v, Term.var v ∈ vs → ∃ cs, dom v.sort = .ok cs) ∧
    (n = 0 ↔ ∃ v, Term.var v ∈ vs ∧ dom v.sort = .ok []) := by
  induction vs generalizing n ls with
  | nil => simp [enumLoop] at h; obtain ⟨rfl, rfl⟩ := h; simp
  | cons t vs ih =>
    simp only [List.mem_cons, forall_eq_or_imp] at hv
    obtain ⟨⟨v, rfl⟩, hv⟩ := hv
    simp only [enumLoop] at h
    split at h
    · simp at h
    · rename_i cs hcs
      split at h
      · simp at h
      · rename_i m ls' he
        simp only [Except.ok.injEq, Prod.mk.injEq] at h
        obtain ⟨rfl, rfl⟩ := h
        obtain ⟨i1, i2⟩ := ih hv he
        constructor
        · intro w hw
          rcases List.mem_cons.mp hw with hw | hw
          · cases hw; exact ⟨_, hcs⟩
          · exact i1 w hw
        · rw [Nat.mul_eq_zero, i2]
          constructor
          · rintro (h0 | ⟨w, h1, h2⟩)
            · refine ⟨v, by simp, ?_⟩
              rw [hcs]; simpa using h0
            · exact ⟨w, by simp [h1], h2⟩
          · rintro ⟨w, h1, h2⟩
            rcases List.mem_cons.mp h1 with h1 | h1
            · cases h1
              rw [hcs] at h2
              cases h2
              left; rfl
            · exact Or.inr ⟨w, h1, h2⟩

theorem cart_ne_nil {α} {ls : List (List α)} (h : (ls.map List.length).prod ≠ 0) : cart ls ≠ [] := by
  intro he
  have := cart_length ls
  rw [he] at this
  simp at this
  exact h this.symm

theorem fresh_of_noRebind {vs values : List Term} {f : Formula} {q} (hr : NoRebind (.quant q vs f))
    (hc : ∀ c ∈ values, ∃ n so, c = Term.const n so) :
    ∀ v, BoundF v f → Fresh (createSubst vs values) v := by
  intro v hv
  apply fresh_const (zip_valsConst hc)
  intro kv hkv he
  have h1 : kv.1 ∈ vs := (List.of_mem_zip hkv).1
  exact hr.2.1 v (he ▸ h1) hv

/-- Properties of one expansion step. -/
theorem expand_spec {dom : Domains} {mode : QEMode} (hdom : ConstDoms dom) {q vs f g}
    (hb : VarBindersF (.quant q vs f)) (hr : NoRebind (.quant q vs f))
    (h : expand dom vs f (creatorOf q) = .ok g) :
    VarBindersF g ∧ NoRebind g ∧
    (∀ (D : Type) (I : Interp D), DomOK I dom → ∀ σ, Sat I g σ ↔ Sat I (.quant q vs f) σ) ∧
    (BadQuant dom mode.elim g ↔ BadQuant dom mode.elim f) ∧
    (∀ v, Term.var v ∈ vs → ∃ cs, dom v.sort = .ok cs ∧ cs ≠ []) := by
  obtain ⟨n, ls, he, hn, rfl⟩ := expand_ok h
  have hcc := cart_consts dom hdom vs n ls he
  have hk : ∀ values, KeysVar (createSubst vs values) := fun values => zip_keysVar hb.1
  have hval : ∀ values ∈ cart ls, ValsConst (createSubst vs values) := fun values hv => zip_valsConst (hcc values hv)
  have hfr : ∀ values ∈ cart ls, ∀ v, BoundF v f → Fresh (createSubst vs values) v :=
    fun values hv => fresh_of_noRebind hr (hcc values hv)
  have hcard := enumLoop_card dom vs n ls he
  have hne : cart ls ≠ [] := cart_ne_nil (by rw [← hcard]; exact hn)
  obtain ⟨o1, o2⟩ := enumLoop_ok hb.1 he
  refine ⟨?_, ?_, ?_, ?_, ?_⟩
  · apply creator_all (P := VarBindersF) (by simp [VarBindersF]) (by simp [VarBindersF])
      (by intro c a b ha hb; exact ⟨ha, hb, trivial⟩)
    intro g hg
    obtain ⟨values, hv, rfl⟩ := List.mem_map.mp hg
    exact subF_varBinders (hk _) (hval _ hv) f hb.2 (hfr _ hv)
  · apply creator_all (P := NoRebind) (by simp [NoRebind]) (by simp [NoRebind])
      (by intro c a b ha hb; exact ⟨ha, hb, trivial⟩)
    intro g hg
    obtain ⟨values, hv, rfl⟩ := List.mem_map.mp hg
    exact subF_noRebind (hk _) (hval _ hv) f hb.2 (hfr _ hv) hr.2.2
  · intro D I hI σ
    rw [sat_creator, Sat, quantBlock_cart I dom hI hdom q (Sat I f) vs hb.1 n ls he σ]
    have : ∀ values ∈ cart ls, (Sat I (subF (createSubst vs values) f) σ ↔
        Sat I f (updAsg I (createSubst vs values) σ)) :=
      fun values hv => subF_sem I (hk _) f hb.2 (hfr _ hv) σ
    cases q with
    | «forall» =>
      simp only [List.mem_map, forall_exists_index, and_imp, forall_apply_eq_imp_iff₂]
      exact forall₂_congr this
    | «exists» =>
      simp only [List.mem_map, exists_exists_and_eq_and]
      constructor
      · rintro ⟨v, hv, h⟩; exact ⟨v, hv, (this v hv).mp h⟩
      · rintro ⟨v, hv, h⟩; exact ⟨v, hv, (this v hv).mpr h⟩
  · have hsub : ∀ values ∈ cart ls, (BadQuant dom mode.elim (subF (createSubst vs values) f) ↔ BadQuant dom mode.elim f) :=
      fun values hv => subF_bad f hb.2 (hfr _ hv)
    constructor
    · intro hbad
      by_contra hnb
      refine creator_all (P := fun g => ¬ BadQuant dom mode.elim g) (by intro h; cases h) (by intro h; cases h) ?_ q
        ((cart ls).map (fun values => subF (createSubst vs values) f)) ?_ hbad
      · intro c a b ha hb h
        cases h with
        | comp _ _ _ f hf h =>
          simp at hf
          rcases hf with rfl | rfl
          · exact ha h
          · exact hb h
      · intro g hg
        obtain ⟨values, hv, rfl⟩ := List.mem_map.mp hg
        rw [hsub values hv]; exact hnb
    · intro hbad
      by_contra hnb
      have := creator_all_inv (P := fun g => ¬ BadQuant dom mode.elim g) (by
        intro c a b h
        exact ⟨fun ha => h (.comp _ _ _ a (by simp) ha), fun hb => h (.comp _ _ _ b (by simp) hb)⟩) q _ hnb
      obtain ⟨values, hv⟩ := List.exists_mem_of_ne_nil _ hne
      exact this _ (List.mem_map.mpr ⟨values, hv, rfl⟩) ((hsub values hv).mpr hbad)
  · intro v hv
    obtain ⟨cs, hcs⟩ := o1 v hv
    refine ⟨cs, hcs, ?_⟩
    rintro rfl
    exact hn (o2.mpr ⟨v, hv, hcs⟩)

theorem expand_error {dom : Domains} {el : Quant → Bool} {q vs f e}
    (hb : VarBindersF (.quant q vs f)) (hq : el q = true)
    (h : expand dom vs f (creatorOf q) = .error e) : BadQuant dom el (.quant q vs f) := by
  unfold expand enumerateGroundings at h
  cases he : enumLoop dom vs with
  | error e' =>
    obtain ⟨v, h1, e2, h2⟩ := enumLoop_error hb.1 he
    exact .here _ _ _ v hq h1 (by intro cs hcs; rw [h2] at hcs; cases hcs)
  | ok p =>
    obtain ⟨n, ls⟩ := p
    rw [he] at h
    simp only at h
    split at h
    · rename_i h0
      obtain ⟨v, h1, h2⟩ := (enumLoop_ok hb.1 he).2.mp h0
      exact .here _ _ _ v hq h1 (by intro cs hcs; rw [h2] at hcs; cases hcs; rfl)
    · simp at h

theorem qe_step (dom : Domains) (mode : QEMode) (hdom : ConstDoms dom)
    (r : Formula → Except Err Formula) (n : Nat)
    (hrec : ∀ g, qdepth g < n → VarBindersF g → NoRebind g → QESpec dom mode g (r g)) (f : Formula) :
    qdepth f ≤ n → VarBindersF f → NoRebind f → QESpec dom mode f (qeWith r dom mode f) := by
  induction f using Formula.induct with
  | htop => intro _ _ _; exact ⟨fun _ _ _ _ => Iff.rfl, by intro h; cases h⟩
  | hbot => intro _ _ _; exact ⟨fun _ _ _ _ => Iff.rfl, by intro h; cases h⟩
  | hatom p ts => intro _ _ _; simp only [qeWith]; exact ⟨fun _ _ _ _ => Iff.rfl, by intro h; cases h⟩
  | hcomp k c fs ih =>
    intro hd hb hr
    have hl : QEsSpec dom mode fs (qesWith r dom mode fs) := by
      simp only [qdepth] at hd
      simp only [VarBindersF] at hb
      simp only [NoRebind] at hr
      clear k c
      induction fs with
      | nil => simp only [qesWith, QEsSpec]; simp
      | cons f fs ihl =>
        simp only [qdepths] at hd
        have h1 := ih f (by simp) (by omega) hb.1 hr.1
        have h2 := ihl (fun f hf => ih f (by simp [hf])) (by omega) hb.2 hr.2
        simp only [qesWith]
        cases e1 : qeWith r dom mode f with
        | error e => rw [e1] at h1; exact ⟨f, by simp, h1⟩
        | ok g =>
          rw [e1] at h1
          cases e2 : qesWith r dom mode fs with
          | error e =>
            rw [e2] at h2
            obtain ⟨f', hf', hbad⟩ := h2
            exact ⟨f', by simp [hf'], hbad⟩
          | ok gs =>
            rw [e2] at h2
            refine ⟨fun D I hI σ => ?_, ?_⟩
            · simp only [SatAll, SatAny, h1.1 D I hI σ, (h2.1 D I hI σ).1, (h2.1 D I hI σ).2, and_self]
            · intro f' hf'
              rcases List.mem_cons.mp hf' with rfl | hf'
              · exact h1.2
              · exact h2.2 f' hf'
    simp only [qeWith]
    cases e2 : qesWith r dom mode fs with
    | error e => rw [e2] at hl; obtain ⟨f, hf, h⟩ := hl; exact .comp _ _ _ f hf h
    | ok gs =>
      rw [e2] at hl
      refine ⟨fun D I hI σ => ?_, ?_⟩
      · cases c <;> simp only [Sat, (hl.1 D I hI σ).1, (hl.1 D I hI σ).2]
      · rintro (_ | _ | ⟨_, _, _, g, hg, h⟩)
        exact hl.2 g hg h
  | hquant q vs f ih =>
    intro hd hb hr
    simp only [qdepth] at hd
    simp only [qeWith]
    split
    · rename_i hq
      cases he : expand dom vs f (creatorOf q) with
      | error e => exact expand_error hb hq he
      | ok g =>
        obtain ⟨s1, s2, s3, s4, s5⟩ := expand_spec (mode := mode) hdom hb hr he
        have hg := hrec g (by have := expand_depth he; omega) s1 s2
        have hbad : BadQuant dom mode.elim (.quant q vs f) ↔ BadQuant dom mode.elim g := by
          rw [s4]
          constructor
          · rintro (⟨_, _, _, v, h1, h2, h3⟩ | ⟨_, _, _, h⟩ | _)
            · obtain ⟨cs, hcs, hne⟩ := s5 v h2
              exact absurd (h3 cs hcs) hne
            · exact h
          · exact .under _ _ _
        simp only
        cases hrg : r g with
        | error e => rw [hrg] at hg; exact hbad.mpr hg
        | ok g' =>
          rw [hrg] at hg
          exact ⟨fun D I hI σ => by rw [hg.1 D I hI σ, s3 D I hI σ], by rw [hbad]; exact hg.2⟩
    · rename_i hq
      have hf := ih (by omega) hb.2 hr.2.2
      cases e1 : qeWith r dom mode f with
      | error e => rw [e1] at hf; exact .under _ _ _ hf
      | ok g =>
        rw [e1] at hf
        refine ⟨fun D I hI σ => ?_, ?_⟩
        · simp only [Sat]
          exact quantBlock_congr I q vs (fun σ => hf.1 D I hI σ) σ
        · rintro (⟨_, _, _, v, h1, h2, h3⟩ | ⟨_, _, _, h⟩ | _)
          · exact hq h1
          · exact hf.2 h

theorem qe_main (dom : Domains) (mode : QEMode) (hdom : ConstDoms dom) (n : Nat) :
    ∀ f, qdepth f ≤ n → VarBindersF f → NoRebind f → QESpec dom mode f (qeFuel dom mode n f) := by
  induction n with
  | zero => exact qe_step dom mode hdom _ 0 (by simp)
  | succ n ih => exact qe_step dom mode hdom _ (n + 1) (fun g hg => ih g (by omega))

theorem qe_noQuant_step (dom : Domains) (mode : QEMode) (r : Formula → Except Err Formula)
    (hr : ∀ g h, r g = .ok h → NoQuant mode.elim h) (f : Formula) :
    ∀ g, qeWith r dom mode f = .ok g → NoQuant mode.elim g := by
  induction f using Formula.induct with
  | htop => intro g h; simp [qeWith] at h; subst h; exact .top
  | hbot => intro g h; simp [qeWith] at h; subst h; exact .bot
  | hatom p ts => intro g h; simp [qeWith] at h; subst h; exact .atom _ _
  | hcomp k c fs ih =>
    intro g h
    simp only [qeWith] at h
    cases e : qesWith r dom mode fs with
    | error e' => rw [e] at h; simp at h
    | ok gs =>
      rw [e] at h; simp at h; subst h
      refine .comp _ _ _ ?_
      clear k c
      induction fs generalizing gs with
      | nil => simp [qesWith] at e; subst e; simp
      | cons f fs ihl =>
        simp only [qesWith] at e
        cases e1 : qeWith r dom mode f with
        | error e' => rw [e1] at e; simp at e
        | ok g1 =>
          rw [e1] at e
          cases e2 : qesWith r dom mode fs with
          | error e' => rw [e2] at e; simp at e
          | ok gs' =>
            rw [e2] at e; simp at e; subst e
            intro g hg
            rcases List.mem_cons.mp hg with rfl | hg
            · exact ih f (by simp) _ e1
            · exact ihl (fun f hf => ih f (by simp [hf])) _ e2 g hg
  | hquant q vs f ih =>
    intro g h
    simp only [qeWith] at h
    split at h
    · cases he : expand dom vs f (creatorOf q) with
      | error e => rw [he] at h; simp at h
      | ok g' => rw [he] at h; exact hr _ _ h
    · rename_i hq
      cases e1 : qeWith r dom mode f with
      | error e' => rw [e1] at h; simp at h
      | ok g1 => rw [e1] at h; simp at h; subst h; exact .quant _ _ _ (by simpa using hq) (ih _ e1)

theorem qe_noQuant (dom : Domains) (mode : QEMode) (n : Nat) :
    ∀ f g, qeFuel dom mode n f = .ok g → NoQuant mode.elim g := by
  induction n with
  | zero => exact qe_noQuant_step dom mode _ (by simp)
  | succ n ih => exact qe_noQuant_step dom mode _ ih

/-! ### Failure characterisation without any restriction on re-binding -/

/-- Entries of quantifier lists in the skeleton are variables or constants. -/
inductive BVC : Formula → Prop where
  | top : BVC .top
  | bot : BVC .bot
  | atom p ts : BVC (.atom p ts)
  | comp k c fs : (∀ f ∈ fs, BVC f) → BVC (.comp k c fs)
  | quant q vs f : (∀ t ∈ vs, (∃ v, t = Term.var v) ∨ ∃ n so, t = Term.const n so) → BVC f → BVC (.quant q vs f)

theorem bvc_of_varBinders (f : Formula) : VarBindersF f → BVC f := by
  induction f using Formula.induct with
  | htop => intro; exact .top
  | hbot => intro; exact .bot
  | hatom p ts => intro; exact .atom _ _
  | hcomp k c fs ih => intro h; exact .comp _ _ _ (fun f hf => ih f hf (varBindersFs_mem h f hf))
  | hquant q vs f ih => intro h; exact .quant _ _ _ (fun t ht => Or.inl (h.1 t ht)) (ih h.2)

theorem enumLoop_error' {dom : Domains} {vs e}
    (hv : ∀ t ∈ vs, (∃ v, t = Term.var v) ∨ ∃ n so, t = Term.const n so)
    (h : enumLoop dom vs = .error e) : ∃ v, Term.var v ∈ vs ∧ ∃ e, dom v.sort = .error e := by
  induction vs with
  | nil => simp [enumLoop] at h
  | cons t vs ih =>
    simp only [List.mem_cons, forall_eq_or_imp] at hv
    obtain ⟨⟨v, rfl⟩ | ⟨n, so, rfl⟩, hv⟩ := hv
    · simp only [enumLoop] at h
      split at h
      · rename_i e he
        exact ⟨v, by simp, _, he⟩
      · split at h
        · rename_i he
          simp only [Except.error.injEq] at h; subst h
          obtain ⟨w, h1, h2⟩ := ih hv he
          exact ⟨w, by simp [h1], h2⟩
        · simp at h
    · obtain ⟨w, h1, h2⟩ := ih hv h
      exact ⟨w, by simp [h1], h2⟩

theorem enumLoop_ok' {dom : Domains} {vs n ls}
    (h : enumLoop dom vs = .ok (n, ls)) :
    (∀ v, Term.var v ∈ vs → ∃ cs, dom v.sort = .ok cs) ∧
    (n = 0 ↔ ∃ v, Term.var v ∈ vs ∧ dom v.sort = .ok []) := by
  induction vs generalizing n ls with
  | nil => simp [enumLoop] at h; obtain ⟨rfl, rfl⟩ := h; simp
  | cons t vs ih =>
    cases t with
    | app f ts => simp [enumLoop] at h
    | ite a b c => simp [enumLoop] at h
    | const a b => simpa using ih h
    | var v =>
      simp only [enumLoop] at h
      split at h
      · simp at h
      · rename_i cs hcs
        split at h
        · simp at h
        · rename_i m ls' he
          simp only [Except.ok.injEq, Prod.mk.injEq] at h
          obtain ⟨rfl, rfl⟩ := h
          obtain ⟨i1, i2⟩ := ih he
          constructor
          · intro w hw
            rcases List.mem_cons.mp hw with hw | hw
            · cases hw; exact ⟨_, hcs⟩
            · exact i1 w hw
          · rw [Nat.mul_eq_zero, i2]
            constructor
            · rintro (h0 | ⟨w, h1, h2⟩)
              · refine ⟨v, by simp, ?_⟩
                rw [hcs]; simpa using h0
              · exact ⟨w, by simp [h1], h2⟩
            · rintro ⟨w, h1, h2⟩
              rcases List.mem_cons.mp h1 with h1 | h1
              · cases h1
                rw [hcs] at h2
                cases h2
                left; rfl
              · exact Or.inr ⟨w, h1, h2⟩

theorem visit_cases {s : Subst} (hc : ValsConst s) (t : Term) :
    s.visit t = t ∧ (∀ kv ∈ s, kv.1 ≠ t) ∨ (∃ n so, s.visit t = Term.const n so) ∧ ∃ kv ∈ s, kv.1 = t := by
  unfold Subst.visit
  cases hg : s.get? t with
  | none => exact Or.inl ⟨rfl, get?_eq_none.mp hg⟩
  | some u =>
    obtain ⟨n, so, he⟩ := hc _ (get?_eq_some hg)
    exact Or.inr ⟨⟨n, so, by simpa using he⟩, _, get?_eq_some hg, rfl⟩

theorem subTs_eq_map (s : Subst) (ts : List Term) : subTs s ts = ts.map (subT s) := by
  induction ts with
  | nil => rfl
  | cons t ts ih => simp [subTs, ih]

theorem var_mem_subTs {s : Subst} (hc : ValsConst s) (v : Var) (vs : List Term) :
    Term.var v ∈ subTs s vs ↔ Term.var v ∈ vs ∧ ∀ kv ∈ s, kv.1 ≠ Term.var v := by
  rw [subTs_eq_map, List.mem_map]
  constructor
  · rintro ⟨t, ht, he⟩
    have key : ∀ u, s.visit u = Term.var v → u = Term.var v ∧ ∀ kv ∈ s, kv.1 ≠ Term.var v := by
      intro u hu
      rcases visit_cases hc u with ⟨h1, h2⟩ | ⟨⟨n, so, h1⟩, _⟩
      · rw [h1] at hu; subst hu; exact ⟨rfl, h2⟩
      · rw [h1] at hu; cases hu
    cases t with
    | var w => rw [subT] at he; obtain ⟨h1, h2⟩ := key _ he; rw [h1] at ht; exact ⟨ht, h2⟩
    | const n so => rw [subT] at he; exact absurd (key _ he).1 (by simp)
    | app f ts => rw [subT] at he; exact absurd (key _ he).1 (by simp)
    | ite a b c => rw [subT] at he; exact absurd (key _ he).1 (by simp)
  · rintro ⟨h1, h2⟩
    refine ⟨_, h1, ?_⟩
    rw [subT]
    rcases visit_cases hc (.var v) with ⟨h3, _⟩ | ⟨_, kv, h3, h4⟩
    · exact h3
    · exact absurd h4 (h2 kv h3)

theorem subF_bad' {s : Subst} {dom : Domains} {el : Quant → Bool} (hc : ValsConst s)
    (hk : ∀ v, (∃ kv ∈ s, kv.1 = Term.var v) → ∃ cs, dom v.sort = .ok cs ∧ cs ≠ []) (f : Formula) :
    BadQuant dom el (subF s f) ↔ BadQuant dom el f := by
  induction f using Formula.induct with
  | htop => rfl
  | hbot => rfl
  | hatom p ts => constructor <;> (intro h; cases h)
  | hcomp k c fs ih =>
    simp only [subF, subFs_eq_map]
    constructor
    · rintro (_ | _ | ⟨_, _, _, g, hg, h⟩)
      obtain ⟨g', hg', rfl⟩ := List.mem_map.mp hg
      exact .comp _ _ _ g' hg' ((ih g' hg').mp h)
    · rintro (_ | _ | ⟨_, _, _, g, hg, h⟩)
      exact .comp _ _ _ _ (List.mem_map.mpr ⟨g, hg, rfl⟩) ((ih g hg).mpr h)
  | hquant q vs f ih =>
    simp only [subF]
    constructor
    · rintro (⟨_, _, _, v, h1, h2, h3⟩ | ⟨_, _, _, h⟩ | _)
      · exact .here _ _ _ v h1 ((var_mem_subTs hc v vs).mp h2).1 h3
      · exact .under _ _ _ (ih.mp h)
    · rintro (⟨_, _, _, v, h1, h2, h3⟩ | ⟨_, _, _, h⟩ | _)
      · refine .here _ _ _ v h1 ((var_mem_subTs hc v vs).mpr ⟨h2, ?_⟩) h3
        intro kv hkv he
        obtain ⟨cs, hcs, hne⟩ := hk v ⟨kv, hkv, he⟩
        exact hne (h3 cs hcs)
      · exact .under _ _ _ (ih.mpr h)

theorem subF_bvc {s : Subst} (hc : ValsConst s) (f : Formula) : BVC f → BVC (subF s f) := by
  induction f using Formula.induct with
  | htop => exact id
  | hbot => exact id
  | hatom p ts => intro; exact .atom _ _
  | hcomp k c fs ih =>
    intro h
    cases h with
    | comp _ _ _ h =>
      simp only [subF, subFs_eq_map]
      refine .comp _ _ _ ?_
      intro g hg
      obtain ⟨g', hg', rfl⟩ := List.mem_map.mp hg
      exact ih g' hg' (h g' hg')
  | hquant q vs f ih =>
    intro h
    cases h with
    | quant _ _ _ h1 h2 =>
      simp only [subF, subTs_eq_map]
      refine .quant _ _ _ ?_ (ih h2)
      intro t ht
      obtain ⟨t', ht', rfl⟩ := List.mem_map.mp ht
      rcases h1 t' ht' with ⟨v, rfl⟩ | ⟨n, so, rfl⟩
      all_goals
        rw [subT]
        rcases visit_cases hc _ with ⟨h3, _⟩ | ⟨h3, _⟩
        · rw [h3]; simp
        · exact Or.inr h3

/-- Returns iff not bad. -/
def QEFail (dom : Domains) (mode : QEMode) (f : Formula) (r : Except Err Formula) : Prop :=
  (∃ e, r = .error e) ↔ BadQuant dom mode.elim f

theorem qe_fail_step (dom : Domains) (mode : QEMode) (hdom : ConstDoms dom)
    (r : Formula → Except Err Formula) (n : Nat)
    (hrec : ∀ g, qdepth g < n → BVC g → QEFail dom mode g (r g)) (f : Formula) :
    qdepth f ≤ n → BVC f → QEFail dom mode f (qeWith r dom mode f) := by
  induction f using Formula.induct with
  | htop => intro _ _; simp only [QEFail, qeWith]; constructor <;> (intro h; cases h; try simp_all)
  | hbot => intro _ _; simp only [QEFail, qeWith]; constructor <;> (intro h; cases h; try simp_all)
  | hatom p ts => intro _ _; simp only [QEFail, qeWith]; constructor <;> (intro h; cases h; try simp_all)
  | hcomp k c fs ih =>
    intro hd hb
    cases hb with
    | comp _ _ _ hb =>
    have hl : (∃ e, qesWith r dom mode fs = .error e) ↔ ∃ f ∈ fs, BadQuant dom mode.elim f := by
      simp only [qdepth] at hd
      clear k c
      induction fs with
      | nil => simp [qesWith]
      | cons f fs ihl =>
        simp only [qdepths] at hd
        have h1 : (∃ e, _ = _) ↔ _ := ih f (by simp) (by omega) (hb f (by simp))
        have h2 := ihl (fun f hf => ih f (by simp [hf])) (by omega) (fun f hf => hb f (by simp [hf]))
        simp only [qesWith]
        simp only [List.mem_cons, exists_eq_or_imp]
        rw [← h1, ← h2]
        cases e1 : qeWith r dom mode f with
        | error e => simp
        | ok g =>
          cases e2 : qesWith r dom mode fs with
          | error e => simp
          | ok gs => simp
    have hbad : BadQuant dom mode.elim (.comp k c fs) ↔ ∃ f ∈ fs, BadQuant dom mode.elim f := by
      constructor
      · rintro (_ | _ | ⟨_, _, _, g, hg, h⟩); exact ⟨g, hg, h⟩
      · rintro ⟨g, hg, h⟩; exact .comp _ _ _ g hg h
    rw [QEFail, hbad, ← hl]
    simp only [qeWith]
    cases e2 : qesWith r dom mode fs <;> simp
  | hquant q vs f ih =>
    intro hd hb
    cases hb with
    | quant _ _ _ hb1 hb2 =>
    simp only [qdepth] at hd
    simp only [qeWith]
    split
    · rename_i hq
      cases he : expand dom vs f (creatorOf q) with
      | error e =>
        simp only [QEFail, Except.error.injEq, exists_eq', true_iff]
        unfold expand enumerateGroundings at he
        cases he2 : enumLoop dom vs with
        | error e' =>
          obtain ⟨v, h1, e2, h2⟩ := enumLoop_error' hb1 he2
          exact .here _ _ _ v hq h1 (by intro cs hcs; rw [h2] at hcs; cases hcs)
        | ok p =>
          obtain ⟨m, ls⟩ := p
          rw [he2] at he
          simp only at he
          split at he
          · rename_i h0
            obtain ⟨v, h1, h2⟩ := (enumLoop_ok' he2).2.mp h0
            exact .here _ _ _ v hq h1 (by intro cs hcs; rw [h2] at hcs; cases hcs; rfl)
          · simp at he
      | ok g =>
        obtain ⟨m, ls, hl, hm, rfl⟩ := expand_ok he
        have hcc := cart_consts dom hdom vs m ls hl
        have hval : ∀ values ∈ cart ls, ValsConst (createSubst vs values) := fun values hv => zip_valsConst (hcc values hv)
        obtain ⟨o1, o2⟩ := enumLoop_ok' hl
        have hgood : ∀ v, Term.var v ∈ vs → ∃ cs, dom v.sort = .ok cs ∧ cs ≠ [] := by
          intro v hv
          obtain ⟨cs, hcs⟩ := o1 v hv
          refine ⟨cs, hcs, ?_⟩
          rintro rfl
          exact hm (o2.mpr ⟨v, hv, hcs⟩)
        have hsub : ∀ values ∈ cart ls, (BadQuant dom mode.elim (subF (createSubst vs values) f) ↔ BadQuant dom mode.elim f) := by
          intro values hv
          apply subF_bad' (hval values hv)
          rintro v ⟨kv, hkv, hkve⟩
          exact hgood v (hkve ▸ (List.of_mem_zip hkv).1)
        have hne : cart ls ≠ [] := cart_ne_nil (by rw [← enumLoop_card dom vs m ls hl]; exact hm)
        have hbvc : BVC (creatorOf q ((cart ls).map (fun values => subF (createSubst vs values) f))) := by
          apply creator_all (P := BVC) .top .bot
            (by intro c a b ha hb; exact .comp _ _ _ (by simp [ha, hb]))
          intro g hg
          obtain ⟨values, hv, rfl⟩ := List.mem_map.mp hg
          exact subF_bvc (hval values hv) f hb2
        have hg := hrec _ (by have := expand_depth he; omega) hbvc
        have hbad : BadQuant dom mode.elim (.quant q vs f) ↔
            BadQuant dom mode.elim (creatorOf q ((cart ls).map (fun values => subF (createSubst vs values) f))) := by
          constructor
          · intro hbad
            have hbf : BadQuant dom mode.elim f := by
              cases hbad with
              | here _ _ _ v h1 h2 h3 => obtain ⟨cs, hcs, hne⟩ := hgood v h2; exact absurd (h3 cs hcs) hne
              | under _ _ _ h => exact h
            by_contra hnb
            have := creator_all_inv (P := fun g => ¬ BadQuant dom mode.elim g) (by
              intro c a b h
              exact ⟨fun ha => h (.comp _ _ _ a (by simp) ha), fun hb => h (.comp _ _ _ b (by simp) hb)⟩) q _ hnb
            obtain ⟨values, hv⟩ := List.exists_mem_of_ne_nil _ hne
            exact this _ (List.mem_map.mpr ⟨values, hv, rfl⟩) ((hsub values hv).mpr hbf)
          · intro hbad
            refine .under _ _ _ ?_
            by_contra hnb
            refine creator_all (P := fun g => ¬ BadQuant dom mode.elim g) (by intro h; cases h) (by intro h; cases h) ?_ q
              ((cart ls).map (fun values => subF (createSubst vs values) f)) ?_ hbad
            · intro c a b ha hb h
              cases h with
              | comp _ _ _ f hf h =>
                simp at hf
                rcases hf with rfl | rfl
                · exact ha h
                · exact hb h
            · intro g hg
              obtain ⟨values, hv, rfl⟩ := List.mem_map.mp hg
              rw [hsub values hv]; exact hnb
        rw [QEFail, hbad]
        exact hg
    · rename_i hq
      have hf : (∃ e, _ = _) ↔ _ := ih (by omega) hb2
      have hbad : BadQuant dom mode.elim (.quant q vs f) ↔ BadQuant dom mode.elim f := by
        constructor
        · rintro (⟨_, _, _, v, h1, h2, h3⟩ | ⟨_, _, _, h⟩ | _)
          · exact absurd h1 hq
          · exact h
        · exact .under _ _ _
      rw [QEFail, hbad, ← hf]
      cases e1 : qeWith r dom mode f <;> simp

theorem qe_fail (dom : Domains) (mode : QEMode) (hdom : ConstDoms dom) (n : Nat) :
    ∀ f, qdepth f ≤ n → BVC f → QEFail dom mode f (qeFuel dom mode n f) := by
  induction n with
  | zero => exact qe_fail_step dom mode hdom _ 0 (by simp)
  | succ n ih => exact qe_fail_step dom mode hdom _ (n + 1) (fun g hg => ih g (by omega))

end Tarski

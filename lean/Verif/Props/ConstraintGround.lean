import Mathlib.Data.List.Forall2
import Verif.ConstraintGround
import Verif.ExSimpLemmas
import Verif.Props.QE
import Verif.Props.ExSimp
import Verif.Props.CNF
import Verif.Props.Builtins
import Verif.Props.Nodes
import Verif.Props.Containers
/-! C81: grounding of state constraints. -/
namespace Tarski

/-! ### Specification -/

/-- A universal constraint as the operators of the language build it: no existential quantifier, binary conjunctions and
disjunctions, binary comparisons, no if-then-else terms. -/
inductive UC : Formula → Prop where
  | top : UC .top
  | bot : UC .bot
  | user n ts : NoIteTs ts → UC (.atom (.user n) ts)
  | cmp c a b : NoIteTs [a, b] → UC (.atom (.cmp c) [a, b])
  | not k f : UC f → UC (.comp k .not [f])
  | andor k c a b : c ≠ .not → UC a → UC b → UC (.comp k c [a, b])
  | all vs f : UC f → UC (.quant .forall vs f)

/-- The order of the iteration over a set: it lists the same elements. -/
def AnyOrder (ord : List Node → List Node) : Prop := ∀ l, (ord l).Perm l

/-- In the interpretation, the constraint holds for all values of its free variables. -/
def HoldsForAll {D} (I : Interp D) (f : Formula) : Prop :=
  ∀ τ : Asg D, (∀ v, FreeF v f → I.sort v.sort (τ v)) → Sat I f τ

/-! ### Lemmas -/

mutual
theorem subT_noIte {s : Subst} (hs : KeysVar s) (hc : ValsConst s) (t : Term) (h : NoIteT t) : NoIteT (subT s t) := by
  match t with
  | .var v =>
    rw [subT]
    rcases visit_cases hc (.var v) with ⟨h3, _⟩ | ⟨⟨n, so, h3⟩, _⟩
    · rw [h3]; exact h
    · rw [h3]; trivial
  | .const n so => rw [subT, visit_nonvar hs (by simp)]; exact h
  | .app f ts => rw [subT, visit_nonvar hs (by simp)]; exact subTs_noIte hs hc ts h
  | .ite c a b => exact h.elim
theorem subTs_noIte {s : Subst} (hs : KeysVar s) (hc : ValsConst s) (ts : List Term) (h : NoIteTs ts) : NoIteTs (subTs s ts) := by
  match ts with
  | [] => exact h
  | t :: ts => exact ⟨subT_noIte hs hc t h.1, subTs_noIte hs hc ts h.2⟩
end

theorem subF_uc {s : Subst} (hs : KeysVar s) (hc : ValsConst s) {f : Formula} (h : UC f) : UC (subF s f) := by
  induction h with
  | top => exact .top
  | bot => exact .bot
  | user n ts h => exact .user _ _ (subTs_noIte hs hc _ h)
  | cmp c a b h => exact .cmp _ _ _ (subTs_noIte hs hc _ h)
  | not k f _ ih => exact .not _ _ ih
  | andor k c a b h _ _ ha hb => exact .andor _ _ _ _ h ha hb
  | all vs f _ ih => exact .all _ _ ih

mutual
theorem walkT_noIte (t : Term) (h : NoIteT t) : NoIteT (walkT t) := by
  match t with
  | .var v => exact h
  | .const n so => exact h
  | .app f ts => exact walkTs_noIte ts h
  | .ite c a b => exact h.elim
theorem walkTs_noIte (ts : List Term) (h : NoIteTs ts) : NoIteTs (walkTs ts) := by
  match ts with
  | [] => exact h
  | t :: ts => exact ⟨walkT_noIte t h.1, walkTs_noIte ts h.2⟩
end

theorem walkF_uc {f : Formula} (h : UC f) : UC (walkF f) := by
  induction h with
  | top => exact .top
  | bot => exact .bot
  | user n ts h => exact .user _ _ (walkTs_noIte _ h)
  | cmp c a b h => exact .cmp _ _ _ (walkTs_noIte _ h)
  | not k f _ ih => exact .not _ _ ih
  | andor k c a b h _ _ ha hb => exact .andor _ _ _ _ h ha hb
  | all vs f _ ih => exact .all _ _ ih

theorem uc_bin {f : Formula} (h : UC f) : BinOutsideNot f := by
  induction h with
  | top => exact .top
  | bot => exact .bot
  | user n ts h => exact .atom _ _
  | cmp c a b h => exact .atom _ _
  | not k f _ ih => exact .not _ _
  | andor k c a b h _ _ ha hb => exact .andor _ _ _ _ h ha hb
  | all vs f _ ih => exact .quant _ _ _ ih

theorem uc_cmp {f : Formula} (h : UC f) : CmpArity f := by
  induction h with
  | top => exact .top
  | bot => exact .bot
  | user n ts h => exact .user _ _
  | cmp c a b h => exact .cmp _ _ _
  | not k f _ ih => exact .comp _ _ _ (by simpa using ih)
  | andor k c a b h _ _ ha hb => exact .comp _ _ _ (by simpa using ⟨ha, hb⟩)
  | all vs f _ ih => exact .quant _ _ _ ih

mutual
theorem subT_keeps {s : Subst} (hs : KeysVar s) (hc : ValsConst s) {v : Var} (h2 : ∀ kv ∈ s, kv.1 ≠ Term.var v) (t : Term)
    (hi : NoIteT t) (h : FreeT v t) : FreeT v (subT s t) := by
  match t with
  | .var w =>
    cases h
    rw [subT]
    rcases visit_cases hc (.var v) with ⟨h3, _⟩ | ⟨_, kv, h3, h4⟩
    · rw [h3]; rfl
    · exact absurd h4 (h2 kv h3)
  | .const n so => exact h.elim
  | .app g ts => rw [subT, visit_nonvar hs (by simp)]; exact subTs_keeps hs hc h2 ts hi h
  | .ite c a b => exact hi.elim
theorem subTs_keeps {s : Subst} (hs : KeysVar s) (hc : ValsConst s) {v : Var} (h2 : ∀ kv ∈ s, kv.1 ≠ Term.var v) (ts : List Term)
    (hi : NoIteTs ts) (h : FreeTs v ts) : FreeTs v (subTs s ts) := by
  match ts with
  | [] => exact h
  | t :: ts =>
    rcases h with h | h
    · exact .inl (subT_keeps hs hc h2 t hi.1 h)
    · exact .inr (subTs_keeps hs hc h2 ts hi.2 h)
end

/-- A substitution of variables by constants removes exactly the replaced variables. -/
theorem free_subF_iff {s : Subst} (hs : KeysVar s) (hc : ValsConst s) (v : Var) {f : Formula} (hu : UC f) (hb : VarBindersF f)
    (hf : ∀ w, BoundF w f → Fresh s w) : FreeF v (subF s f) ↔ FreeF v f ∧ ∀ kv ∈ s, kv.1 ≠ Term.var v := by
  constructor
  · intro h
    rcases freeF_subF hs v f hb hf h with h | ⟨kv, h1, h2⟩
    · exact h
    · obtain ⟨n, so, he⟩ := hc kv h1
      rw [he] at h2
      exact h2.elim
  · rintro ⟨h1, h2⟩
    have hTs : ∀ ts, NoIteTs ts → FreeTs v ts → FreeTs v (subTs s ts) := fun ts => subTs_keeps hs hc h2 ts
    induction hu with
    | top => exact h1
    | bot => exact h1
    | user n ts h => exact hTs _ h h1
    | cmp c a b h => exact hTs _ h h1
    | not k f _ ih =>
      rcases h1 with h1 | h1
      · exact .inl (ih hb.1 (fun w hw => hf w (.inl hw)) h1)
      · exact h1.elim
    | andor k c a b h _ _ iha ihb =>
      rcases h1 with h1 | h1 | h1
      · exact .inl (iha hb.1 (fun w hw => hf w (.inl hw)) h1)
      · exact .inr (.inl (ihb hb.2.1 (fun w hw => hf w (.inr (.inl hw))) h1))
      · exact h1.elim
    | all vs f _ ih =>
      simp only [subF, FreeF]
      refine ⟨ih hb.2 (fun w hw => hf w (.inr hw)) h1.1, ?_⟩
      rw [var_mem_subTs hc]
      exact fun h => h1.2 h.1

theorem uc_creator {fs : List Formula} (h : ∀ f ∈ fs, UC f) : UC (creatorOf .forall fs) := by
  simp only [creatorOf, land, createCompound]
  split
  · exact .top
  · split
    · exact h _ (by simp)
    · simp only [Bool.false_eq_true, if_false]
      exact tree_all .top (fun a b ha hb => .andor _ _ _ _ (by simp) ha hb) _ h

theorem free_creator (v : Var) (fs : List Formula) : FreeF v (creatorOf .forall fs) ↔ ∃ f ∈ fs, FreeF v f := by
  constructor
  · intro h
    by_contra hn
    refine creator_all (P := fun g => ¬ FreeF v g) (by simp [FreeF]) (by simp [FreeF]) ?_ .forall fs (fun f hf hv => hn ⟨f, hf, hv⟩) h
    intro c a b ha hb h
    rcases h with h | h | h
    · exact ha h
    · exact hb h
    · exact h
  · rintro ⟨f, hf, hv⟩
    by_contra hn
    refine creator_all_inv (P := fun g => ¬ FreeF v g) ?_ .forall fs hn f hf hv
    intro c a b h
    exact ⟨fun ha => h (.inl ha), fun hb => h (.inr (.inl hb))⟩

theorem enumLoop_len {dom : Domains} {vs : List Term} {n ls} (hb : ∀ t ∈ vs, ∃ v, t = Term.var v) (he : enumLoop dom vs = .ok (n, ls)) :
    ∀ values ∈ cart ls, values.length = vs.length := by
  have key : ∀ (vs : List Term) n ls, (∀ t ∈ vs, ∃ v, t = Term.var v) → enumLoop dom vs = .ok (n, ls) →
      ∀ values ∈ cart ls, values.length = vs.length := by
    intro vs
    induction vs with
    | nil => intro n ls _ h; simp [enumLoop] at h; obtain ⟨rfl, rfl⟩ := h; simp [cart]
    | cons t vs ih =>
      intro n ls hv h values hm
      obtain ⟨v, rfl⟩ := hv t (by simp)
      simp only [enumLoop] at h
      split at h
      · simp at h
      · split at h
        · simp at h
        · rename_i h2
          simp only [Except.ok.injEq, Prod.mk.injEq] at h
          obtain ⟨rfl, rfl⟩ := h
          simp only [cart, List.mem_flatMap, List.mem_map] at hm
          obtain ⟨c, hc, vals, hvals, rfl⟩ := hm
          simp [ih _ _ (fun t ht => hv t (by simp [ht])) h2 vals hvals]
  exact key vs n ls hb he

theorem uc_expand {dom : Domains} (hd : ConstDoms dom) {vs f g} (h : expand dom vs f (creatorOf .forall) = .ok g)
    (hu : UC f) (hb : VarBindersF (.quant .forall vs f)) (hr : NoRebind (.quant .forall vs f)) :
    UC g ∧ ∀ v, FreeF v g ↔ FreeF v (.quant .forall vs f) := by
  obtain ⟨n, ls, he, hn, rfl⟩ := expand_ok h
  have hcc := cart_consts dom hd vs n ls he
  have hkv : ∀ values, KeysVar (createSubst vs values) := fun values => zip_keysVar hb.1
  have hval : ∀ values ∈ cart ls, ValsConst (createSubst vs values) := fun values hv => zip_valsConst (hcc values hv)
  have hlen : ∀ values ∈ cart ls, values.length = vs.length := enumLoop_len hb.1 he
  have hfree : ∀ values ∈ cart ls, ∀ v, FreeF v (subF (createSubst vs values) f) ↔ FreeF v (.quant .forall vs f) := by
    intro values hv v
    rw [free_subF_iff (hkv values) (hval values hv) v hu hb.2 (fresh_of_noRebind hr (hcc values hv))]
    simp only [FreeF]
    refine and_congr_right fun _ => ⟨fun h hm => ?_, fun h kv hkv he => h (he ▸ (List.of_mem_zip hkv).1)⟩
    obtain ⟨i, hi, hie⟩ := List.getElem_of_mem hm
    have hi' : i < values.length := by rw [hlen values hv]; exact hi
    refine h (vs[i], values[i]) ?_ hie
    have : (vs.zip values)[i]'(by rw [List.length_zip]; omega) = (vs[i], values[i]) := by simp
    rw [createSubst, ← this]
    exact List.getElem_mem _
  refine ⟨uc_creator ?_, fun v => ?_⟩
  · intro g hg
    obtain ⟨values, hv, rfl⟩ := List.mem_map.mp hg
    exact subF_uc (hkv values) (hval values hv) hu
  · rw [free_creator]
    constructor
    · rintro ⟨g, hg, h⟩
      obtain ⟨values, hv, rfl⟩ := List.mem_map.mp hg
      exact (hfree values hv v).1 h
    · intro h
      have hne : cart ls ≠ [] := cart_ne_nil (by rw [← enumLoop_card dom vs n ls he]; exact hn)
      obtain ⟨values, hv⟩ := List.exists_mem_of_ne_nil _ hne
      exact ⟨_, List.mem_map.mpr ⟨values, hv, rfl⟩, (hfree values hv v).2 h⟩

theorem uc_step (dom : Domains) (hd : ConstDoms dom) (r : Formula → Except Err Formula) (n : Nat)
    (hr : ∀ g, qdepth g < n → UC g → VarBindersF g → NoRebind g → ∀ h, r g = .ok h → UC h ∧ ∀ v, FreeF v h ↔ FreeF v g)
    {f : Formula} (hu : UC f) : qdepth f ≤ n → VarBindersF f → NoRebind f → ∀ g, qeWith r dom .forall f = .ok g →
      UC g ∧ ∀ v, FreeF v g ↔ FreeF v f := by
  induction hu with
  | top => intro _ _ _ g h; cases h; exact ⟨.top, fun _ => Iff.rfl⟩
  | bot => intro _ _ _ g h; cases h; exact ⟨.bot, fun _ => Iff.rfl⟩
  | user n ts hi => intro _ _ _ g h; cases h; exact ⟨.user _ _ hi, fun _ => Iff.rfl⟩
  | cmp c a b hi => intro _ _ _ g h; cases h; exact ⟨.cmp _ _ _ hi, fun _ => Iff.rfl⟩
  | not k f _ ih =>
    intro hdp hb hnr g h
    simp only [qdepth, qdepths] at hdp
    simp only [qeWith, qesWith] at h
    cases e : qeWith r dom .forall f with
    | error e' => rw [e] at h; cases h
    | ok g' =>
      rw [e] at h
      cases h
      obtain ⟨h1, h2⟩ := ih (by omega) hb.1 hnr.1 g' e
      exact ⟨.not _ _ h1, fun v => by simp only [FreeF, FreeFs, h2]⟩
  | andor k c a b hc _ _ iha ihb =>
    intro hdp hb hnr g h
    simp only [qdepth, qdepths] at hdp
    simp only [qeWith, qesWith] at h
    cases ea : qeWith r dom .forall a with
    | error e' => rw [ea] at h; cases h
    | ok a' =>
      cases eb : qeWith r dom .forall b with
      | error e' => rw [ea, eb] at h; cases h
      | ok b' =>
        rw [ea, eb] at h
        cases h
        obtain ⟨h1, h2⟩ := iha (by omega) hb.1 hnr.1 a' ea
        obtain ⟨h3, h4⟩ := ihb (by omega) hb.2.1 hnr.2.1 b' eb
        exact ⟨.andor _ _ _ _ hc h1 h3, fun v => by simp only [FreeF, FreeFs, h2, h4]⟩
  | all vs f huf ih =>
    intro hdp hb hnr g h
    simp only [qdepth] at hdp
    simp only [qeWith, QEMode.elim, if_true] at h
    cases he : expand dom vs f (creatorOf .forall) with
    | error e => rw [he] at h; cases h
    | ok g' =>
      rw [he] at h
      obtain ⟨h1, h2⟩ := uc_expand hd he huf hb hnr
      obtain ⟨s1, s2, -⟩ := expand_spec (mode := .forall) hd hb hnr he
      have hdg := expand_depth he
      obtain ⟨h3, h4⟩ := hr g' (by omega) h1 s1 s2 g h
      exact ⟨h3, fun v => by rw [h4, h2]⟩

theorem uc_qe (dom : Domains) (hd : ConstDoms dom) (n : Nat) : ∀ f, qdepth f ≤ n → UC f → VarBindersF f → NoRebind f →
    ∀ g, qeFuel dom .forall n f = .ok g → UC g ∧ ∀ v, FreeF v g ↔ FreeF v f := by
  induction n with
  | zero => intro f hf hu; exact uc_step dom hd _ 0 (by simp) hu hf
  | succ n ih => intro f hf hu; exact uc_step dom hd _ (n + 1) (fun g hg => ih g (by omega)) hu hf


/-! ### Quantifier-free constraints -/

mutual
theorem occursT_free (v : Var) (t : Term) (hi : NoIteT t) : Occurs (.t (.var v)) (.t t) ↔ FreeT v t := by
  match t with
  | .var w =>
    rw [occurs_iff]
    constructor
    · rintro (h | ⟨b, -, hb⟩)
      · cases h; rfl
      · cases hb
    · intro h; cases h; exact .inl rfl
  | .const n so =>
    rw [occurs_iff]
    constructor
    · rintro (h | ⟨b, -, hb⟩)
      · cases h
      · cases hb
    · intro h; exact h.elim
  | .app g ts =>
    rw [occurs_iff]
    constructor
    · rintro (h | ⟨b, h, hb⟩)
      · cases h
      · cases hb with
        | app ht => exact (occursTs_free v ts hi).1 ⟨_, ht, h⟩
    · intro h
      obtain ⟨t, ht, ho⟩ := (occursTs_free v ts hi).2 h
      exact .inr ⟨_, ho, .app ht⟩
  | .ite c a b => exact hi.elim
theorem occursTs_free (v : Var) (ts : List Term) (hi : NoIteTs ts) : (∃ t ∈ ts, Occurs (.t (.var v)) (.t t)) ↔ FreeTs v ts := by
  match ts with
  | [] => simp [FreeTs]
  | t :: ts =>
    simp only [List.mem_cons, exists_eq_or_imp, FreeTs]
    rw [occursT_free v t hi.1, occursTs_free v ts hi.2]
end

/-- In a quantifier-free constraint, the variables that occur are the free ones. -/
theorem occurs_free {g : Formula} (hu : UC g) (hq : NoQuant (fun q => q = .forall) g) (v : Var) :
    Occurs (.t (.var v)) (.f g) ↔ FreeF v g := by
  have hnf : ∀ {f}, Node.t (.var v) ≠ .f f := fun h => by cases h
  induction hu with
  | top =>
    rw [occurs_iff]
    exact ⟨fun h => (by rcases h with h | ⟨b, -, hb⟩; exacts [absurd h hnf, by cases hb]), fun h => h.elim⟩
  | bot =>
    rw [occurs_iff]
    exact ⟨fun h => (by rcases h with h | ⟨b, -, hb⟩; exacts [absurd h hnf, by cases hb]), fun h => h.elim⟩
  | user n ts hi =>
    rw [occurs_iff, FreeF, ← occursTs_free v ts hi]
    constructor
    · rintro (h | ⟨b, h, hb⟩)
      · exact absurd h hnf
      · cases hb with
        | atom ht => exact ⟨_, ht, h⟩
    · rintro ⟨t, ht, h⟩; exact .inr ⟨_, h, .atom ht⟩
  | cmp c a b hi =>
    rw [occurs_iff, FreeF, ← occursTs_free v _ hi]
    constructor
    · rintro (h | ⟨b, h, hb⟩)
      · exact absurd h hnf
      · cases hb with
        | atom ht => exact ⟨_, ht, h⟩
    · rintro ⟨t, ht, h⟩; exact .inr ⟨_, h, .atom ht⟩
  | not k f _ ih =>
    cases hq with
    | comp _ _ _ hq =>
      have ih := ih (hq f (by simp))
      rw [occurs_iff]
      simp only [FreeF, FreeFs, or_false]
      constructor
      · rintro (h | ⟨b, h, hb⟩)
        · exact absurd h hnf
        · cases hb with
          | comp hm => rw [List.mem_singleton] at hm; subst hm; exact ih.1 h
      · intro h; exact .inr ⟨_, ih.2 h, .comp (by simp)⟩
  | andor k c a b hc _ _ iha ihb =>
    cases hq with
    | comp _ _ _ hq =>
      have iha := iha (hq a (by simp))
      have ihb := ihb (hq b (by simp))
      rw [occurs_iff]
      simp only [FreeF, FreeFs, or_false]
      constructor
      · rintro (h | ⟨x, h, hb⟩)
        · exact absurd h hnf
        · cases hb with
          | comp hm =>
            simp only [List.mem_cons, List.not_mem_nil, or_false] at hm
            rcases hm with rfl | rfl
            · exact .inl (iha.1 h)
            · exact .inr (ihb.1 h)
      · rintro (h | h)
        · exact .inr ⟨_, iha.2 h, .comp (by simp)⟩
        · exact .inr ⟨_, ihb.2 h, .comp (by simp)⟩
  | all vs f _ _ =>
    cases hq with
    | quant _ _ _ h => simp at h

theorem noQuant_bound {g : Formula} (hu : UC g) (hq : NoQuant (fun q => q = .forall) g) (v : Var) : ¬ BoundF v g := by
  have key : ∀ ts : List Term, NoIteTs ts → ¬ BoundTs v ts := fun ts h => (noIteTs_bound v ts h).1
  induction hu with
  | top => exact id
  | bot => exact id
  | user n ts hi => exact key _ hi
  | cmp c a b hi => exact key _ hi
  | not k f _ ih =>
    cases hq with
    | comp _ _ _ hq => rintro (h | h); exacts [ih (hq f (by simp)) h, h]
  | andor k c a b hc _ _ iha ihb =>
    cases hq with
    | comp _ _ _ hq =>
      rintro (h | h | h)
      exacts [iha (hq a (by simp)) h, ihb (hq b (by simp)) h, h]
  | all vs f _ _ =>
    cases hq with
    | quant _ _ _ h => simp at h

theorem uc_varBinders {g : Formula} (hu : UC g) (hq : NoQuant (fun q => q = .forall) g) : VarBindersF g := by
  induction hu with
  | top => trivial
  | bot => trivial
  | user n ts hi => exact (noIteTs_bound ⟨"", ""⟩ _ hi).2
  | cmp c a b hi => exact (noIteTs_bound ⟨"", ""⟩ _ hi).2
  | not k f _ ih =>
    cases hq with
    | comp _ _ _ hq => exact ⟨ih (hq f (by simp)), trivial⟩
  | andor k c a b hc _ _ iha ihb =>
    cases hq with
    | comp _ _ _ hq => exact ⟨iha (hq a (by simp)), ihb (hq b (by simp)), trivial⟩
  | all vs f _ _ =>
    cases hq with
    | quant _ _ _ h => simp at h


theorem quantBlock_iff {D} (I : Interp D) (vs : List Term) (hv : ∀ t ∈ vs, ∃ v, t = Term.var v) (P : Asg D → Prop) :
    ∀ σ, (quantBlock I .forall vs P σ ↔ ∀ τ : Asg D, (∀ v, Term.var v ∈ vs → I.sort v.sort (τ v)) →
        (∀ v, Term.var v ∉ vs → τ v = σ v) → P τ) ∧
      (quantBlock I .exists vs P σ ↔ ∃ τ : Asg D, (∀ v, Term.var v ∈ vs → I.sort v.sort (τ v)) ∧
        (∀ v, Term.var v ∉ vs → τ v = σ v) ∧ P τ) := by
  induction vs with
  | nil =>
    intro σ
    constructor
    · constructor
      · intro h τ _ h2
        have : τ = σ := funext fun v => h2 v (by simp)
        rw [this]; exact h
      · intro h; exact h σ (by simp) (fun _ _ => rfl)
    · constructor
      · intro h; exact ⟨σ, by simp, fun _ _ => rfl, h⟩
      · rintro ⟨τ, -, h2, h⟩
        have : τ = σ := funext fun v => h2 v (by simp)
        rw [← this]; exact h
  | cons t vs ih =>
    intro σ
    obtain ⟨w, rfl⟩ := hv t (by simp)
    have ih := ih (fun t ht => hv t (by simp [ht]))
    have fwd : ∀ τ : Asg D, (∀ v, Term.var v ∉ Term.var w :: vs → τ v = σ v) →
        ∀ v, Term.var v ∉ vs → τ v = σ.set w (τ w) v := by
      intro τ h v hv
      by_cases hw : v = w
      · subst hw; simp [Asg.set]
      · rw [h v (by simp [hw, hv])]; simp [Asg.set, hw]
    have bwd : ∀ (d : D) (τ : Asg D), I.sort w.sort d → (∀ v, Term.var v ∈ vs → I.sort v.sort (τ v)) →
        (∀ v, Term.var v ∉ vs → τ v = σ.set w d v) →
        (∀ v, Term.var v ∈ Term.var w :: vs → I.sort v.sort (τ v)) ∧ ∀ v, Term.var v ∉ Term.var w :: vs → τ v = σ v := by
      intro d τ hd h1 h2
      constructor
      · intro v hv
        by_cases hm : Term.var v ∈ vs
        · exact h1 v hm
        · rcases List.mem_cons.1 hv with h | h
          · have hvw : v = w := by injection h
            subst hvw
            rw [h2 v hm]
            simpa [Asg.set] using hd
          · exact absurd h hm
      · intro v hv
        simp only [List.mem_cons, not_or] at hv
        rw [h2 v hv.2]
        have : ¬ v = w := fun h => hv.1 (by rw [h])
        simp [Asg.set, this]
    constructor
    · simp only [quantBlock]
      constructor
      · intro H τ h1 h2
        exact ((ih _).1.1 (H (τ w) (h1 w (by simp)))) τ (fun v hv => h1 v (by simp [hv])) (fwd τ h2)
      · intro H d hd
        refine (ih _).1.2 fun τ h1 h2 => ?_
        obtain ⟨a, b⟩ := bwd d τ hd h1 h2
        exact H τ a b
    · simp only [quantBlock]
      constructor
      · rintro ⟨d, hd, H⟩
        obtain ⟨τ, h1, h2, h3⟩ := (ih _).2.1 H
        obtain ⟨a, b⟩ := bwd d τ hd h1 h2
        exact ⟨τ, a, b, h3⟩
      · rintro ⟨τ, h1, h2, h3⟩
        exact ⟨τ w, h1 w (by simp), (ih _).2.2 ⟨τ, fun v hv => h1 v (by simp [hv]), fwd τ h2, h3⟩⟩

/-- The tuples of values are the well-sorted values of the variables. -/
theorem tuples_spec {D} (I : Interp D) (dom : Domains) (hI : DomOK I dom) (vs : List Term) (hv : ∀ t ∈ vs, ∃ v, t = Term.var v)
    (n ls) (h : enumLoop dom vs = .ok (n, ls)) (σ : Asg D) :
    (∀ values ∈ cart ls, ∀ v, Term.var v ∈ vs → I.sort v.sort (updAsg I (createSubst vs values) σ v)) ∧
    ∀ τ : Asg D, (∀ v, Term.var v ∈ vs → I.sort v.sort (τ v)) →
      ∃ values ∈ cart ls, ∀ v, Term.var v ∈ vs → updAsg I (createSubst vs values) σ v = τ v := by
  have hc : ConstDoms dom := fun s cs hs => (hI s cs hs).1
  constructor
  · have := quantBlock_cart I dom hI hc .forall (fun τ => ∀ v, Term.var v ∈ vs → I.sort v.sort (τ v)) vs hv n ls h σ
    exact this.1 ((quantBlock_iff I vs hv _ σ).1.2 (fun τ h1 _ => h1))
  · intro τ hτ
    have := quantBlock_cart I dom hI hc .exists (fun τ' => ∀ v, Term.var v ∈ vs → τ' v = τ v) vs hv n ls h σ
    classical
    refine this.1 ((quantBlock_iff I vs hv _ σ).2.2 ⟨fun v => if Term.var v ∈ vs then τ v else σ v, ?_, ?_, ?_⟩)
    · intro v hm; dsimp only; rw [if_pos hm]; exact hτ v hm
    · intro v hm; dsimp only; rw [if_neg hm]
    · intro v hm; dsimp only; rw [if_pos hm]

theorem walkF_noQuant {e : Quant → Bool} {g : Formula} (h : NoQuant e g) : NoQuant e (walkF g) := by
  induction h with
  | top => exact .top
  | bot => exact .bot
  | atom p ts => exact .atom _ _
  | comp k c fs _ ih =>
    refine .comp _ _ _ ?_
    have : walkFs fs = fs.map walkF := by
      clear ih
      induction fs with
      | nil => rfl
      | cons f fs ih => simp only [walkFs, List.map_cons, ih (fun f hf => by rename_i h; exact h f (by simp [hf]))]
    rw [this]
    intro f hf
    obtain ⟨f', hf', rfl⟩ := List.mem_map.1 hf
    exact ih f' hf'
  | quant q vs f h _ ih => exact .quant _ _ _ h ih

theorem absorb_noQuant {f : Formula} (hf : ∀ q vs h, f ≠ .quant q vs h) : ∀ q vs h, absorb f ≠ .quant q vs h := by
  intro q vs h he
  cases f with
  | top => cases he
  | bot => cases he
  | atom p ts => cases he
  | quant q vs h => exact hf _ _ _ rfl
  | comp k c fs =>
    cases c with
    | not =>
      simp only [absorb] at he
      split at he
      · unfold negateBuiltinAtom at he
        split at he <;> cases he
      · cases he
    | and => rcases fs with _ | ⟨a, _ | ⟨b, r⟩⟩ <;> simp [absorb] at he
    | or => rcases fs with _ | ⟨a, _ | ⟨b, r⟩⟩ <;> simp [absorb] at he

/-- The formula that is added for one tuple of values. -/
theorem ground_one {g c : Formula} {s : Subst} (hk : KeysVar s) (hcs : ValsConst s) (hu : UC g)
    (hq : NoQuant (fun q => q = .forall) g) (h : groundConstraint (walkF g) s = .ok c) {D} (I : Interp D)
    (lt : D → D → Prop) (hl : IsLinear lt) (hcmp : StdCmp I lt) (σ : Asg D) : Sat I c σ ↔ Sat I g (updAsg I s σ) := by
  have hw := walkF_uc hu
  have hwq := walkF_noQuant hq
  have hs := subF_uc hk hcs hw
  have hnq : ∀ q vs h, subF s (walkF g) ≠ .quant q vs h := by
    intro q vs h he
    cases hw' : walkF g with
    | quant q vs f =>
      rw [hw'] at hw hwq
      cases hw with
      | all _ _ _ => cases hwq with | quant _ _ _ h => simp at h
    | _ => rw [hw'] at he; cases he
  have hcnf : toCNF (absorb (subF s (walkF g))) = .ok c := by
    have := absorb_noQuant hnq
    unfold groundConstraint at h
    split at h
    · rename_i he; exact absurd he (this _ _ _)
    · cases h
    · exact h
  rw [← C03_cnf_equiv _ _ hcnf D I σ, C06_absorb_partial _ (uc_bin hs) (uc_cmp hs) D I lt hl hcmp σ,
    subF_sem I hk _ (uc_varBinders hw hwq) (fun v hv => absurd hv (noQuant_bound hw hwq v)) σ, walkF_sat]

/-- What an index without repetitions looks like. -/
structure CInv (idx : SymIndex Formula) : Prop where
  nodup : idx.objects.Nodup
  keys : idx.data.map (·.1) = idx.objects

theorem cinv_add {idx : SymIndex Formula} (hi : CInv idx) (c : Formula) :
    (c ∈ idx.objects → (idx.add c).2 = some .duplicateVariable) ∧
    (c ∉ idx.objects → (idx.add c).2 = none ∧ CInv (idx.add c).1 ∧ (idx.add c).1.objects = idx.objects ++ [c]) := by
  have hn : ∀ d : List (Formula × Nat), dlookup d c = none → ∀ n, (dinsert d c n).map (·.1) = d.map (·.1) ++ [c] := by
    intro d
    induction d with
    | nil => intro _ n; rfl
    | cons kv d ih =>
      obtain ⟨k, v⟩ := kv
      intro h n
      simp only [dlookup] at h
      split at h
      · cases h
      · rename_i hk
        simp [dinsert, hk, ih h n]
  have hm : dlookup idx.data c = none ↔ c ∉ idx.objects := by rw [dlookup_none, hi.keys]
  constructor
  · intro h
    have : (dlookup idx.data c).isSome := by
      rw [← Option.ne_none_iff_isSome]; exact fun hh => hm.1 hh h
    simp [SymIndex.add, this]
  · intro h
    have hnone := hm.2 h
    have : idx.add c = (⟨dinsert idx.data c idx.data.length, idx.objects ++ [c]⟩, none) := by
      simp [SymIndex.add, hnone]
    rw [this]
    refine ⟨rfl, ⟨?_, ?_⟩, rfl⟩
    · exact List.nodup_append.2 ⟨hi.nodup, by simp, by intro a ha b hb he; rw [List.mem_singleton] at hb; subst hb; subst he; exact h ha⟩
    · rw [hn _ hnone, hi.keys]

theorem constraintTuples_spec (g : Formula) (syms : List Term) (tuples : List (List Term)) : ∀ (idx idx' : SymIndex Formula),
    CInv idx → constraintTuples g syms tuples idx = .ok idx' →
    CInv idx' ∧ ∃ cs, idx'.objects = idx.objects ++ cs ∧
      List.Forall₂ (fun values c => groundConstraint g (createSubst syms values) = .ok c) tuples cs := by
  induction tuples with
  | nil => intro idx idx' hi h; cases h; exact ⟨hi, [], by simp, .nil⟩
  | cons values rest ih =>
    intro idx idx' hi h
    simp only [constraintTuples] at h
    cases hg : groundConstraint g (createSubst syms values) with
    | error e => rw [hg] at h; cases h
    | ok c =>
      rw [hg] at h
      dsimp only at h
      obtain ⟨a1, a2⟩ := cinv_add hi c
      by_cases hc : c ∈ idx.objects
      · have h1 := a1 hc
        rcases hadd : idx.add c with ⟨i2, o⟩
        rw [hadd] at h h1
        dsimp only at h1
        subst h1
        cases h
      · obtain ⟨h1, h2, h3⟩ := a2 hc
        rcases hadd : idx.add c with ⟨i2, o⟩
        rw [hadd] at h h1 h2 h3
        dsimp only at h1 h2 h3
        subst h1
        obtain ⟨k1, cs, k2, k3⟩ := ih i2 idx' h2 h
        exact ⟨k1, c :: cs, by rw [k2, h3]; simp, .cons hg k3⟩

/-- What is added for one schema. -/
structure SchemaGround (dom : Domains) (ord : List Node → List Node) (f : Formula) (cs : List Formula) (k : Nat) : Prop where
  ex : ∃ g ls, removeQuantifiers dom .forall f = .ok g ∧ enumLoop dom (listedVariables ord g) = .ok (k, ls) ∧
    List.Forall₂ (fun values c => groundConstraint (walkF g) (createSubst (listedVariables ord g) values) = .ok c) (cart ls) cs

theorem groundSchemas_spec (dom : Domains) (ord : List Node → List Node) (schemas : List Formula) :
    ∀ (idx : SymIndex Formula) (n : Nat) (idx' n'), CInv idx → groundSchemas dom ord schemas idx n = .ok (idx', n') →
    CInv idx' ∧ ∃ css : List (List Formula × Nat), idx'.objects = idx.objects ++ (css.map (·.1)).flatten ∧
      n' = n + (css.map (·.2)).sum ∧ List.Forall₂ (fun f p => SchemaGround dom ord f p.1 p.2) schemas css := by
  induction schemas with
  | nil => intro idx n idx' n' hi h; cases h; exact ⟨hi, [], by simp, by simp, .nil⟩
  | cons f fs ih =>
    intro idx n idx' n' hi h
    simp only [groundSchemas] at h
    cases hq : removeQuantifiers dom .forall f with
    | error e => rw [hq] at h; cases h
    | ok g =>
      rw [hq] at h
      dsimp only at h
      unfold enumerateGroundings at h
      cases he : enumLoop dom (listedVariables ord g) with
      | error e => rw [he] at h; cases h
      | ok r =>
        obtain ⟨k, ls⟩ := r
        rw [he] at h
        dsimp only at h
        cases ht : constraintTuples (walkF g) (listedVariables ord g) (cart ls) idx with
        | error e => rw [ht] at h; cases h
        | ok idx2 =>
          rw [ht] at h
          obtain ⟨k1, cs, k2, k3⟩ := constraintTuples_spec _ _ _ _ _ hi ht
          obtain ⟨l1, css, l2, l3, l4⟩ := ih idx2 (n + k) idx' n' k1 h
          refine ⟨l1, (cs, k) :: css, ?_, ?_, .cons ⟨⟨g, ls, hq, he, k3⟩⟩ l4⟩
          · rw [l2, k2]; simp
          · rw [l3]; simp; omega

theorem cinv_empty : CInv SymIndex.empty := ⟨by simp [SymIndex.empty], by simp [SymIndex.empty]⟩

theorem mem_listedVariables {ord : List Node → List Node} (ho : AnyOrder ord) (g : Formula) (t : Term) :
    t ∈ listedVariables ord g ↔ ∃ v, t = .var v ∧ Occurs (.t (.var v)) (.f g) := by
  unfold listedVariables
  rw [List.mem_filterMap]
  constructor
  · rintro ⟨n, hn, he⟩
    rw [(ho _).mem_iff, (C57_all_variables (.f g)).2] at hn
    obtain ⟨v, rfl, h⟩ := hn
    cases he
    exact ⟨v, rfl, h⟩
  · rintro ⟨v, rfl, h⟩
    exact ⟨.t (.var v), by rw [(ho _).mem_iff, (C57_all_variables (.f g)).2]; exact ⟨v, rfl, h⟩, rfl⟩


theorem forall2_mem_left {α β} {R : α → β → Prop} {l : List α} {m : List β} (h : List.Forall₂ R l m) :
    (∀ a ∈ l, ∃ b ∈ m, R a b) ∧ ∀ b ∈ m, ∃ a ∈ l, R a b := by
  induction h with
  | nil => simp
  | cons h _ ih =>
    refine ⟨fun a ha => ?_, fun b hb => ?_⟩
    · rcases List.mem_cons.1 ha with rfl | ha
      · exact ⟨_, .head _, h⟩
      · obtain ⟨b, hb, hr⟩ := ih.1 a ha; exact ⟨b, .tail _ hb, hr⟩
    · rcases List.mem_cons.1 hb with rfl | hb
      · exact ⟨_, .head _, h⟩
      · obtain ⟨a, ha, hr⟩ := ih.2 b hb; exact ⟨a, .tail _ ha, hr⟩

/-- What is added for one universal constraint. -/
theorem schema_ground {dom : Domains} {ord : List Node → List Node} (ho : AnyOrder ord) {f : Formula} (hu : UC f)
    (hb : VarBindersF f) (hr : NoRebind f) {cs k} (h : SchemaGround dom ord f cs k) {D} (I : Interp D) (hI : DomOK I dom)
    (lt : D → D → Prop) (hl : IsLinear lt) (hcmp : StdCmp I lt) (ρ : Asg D) :
    (∀ τ : Asg D, (∀ v, FreeF v f → I.sort v.sort (τ v)) → ∃ c ∈ cs, ∀ σ, Sat I c σ ↔ Sat I f τ) ∧
    (∀ c ∈ cs, ∃ τ : Asg D, (∀ v, FreeF v f → I.sort v.sort (τ v)) ∧ ∀ σ, Sat I c σ ↔ Sat I f τ) := by
  obtain ⟨g, ls, hq, he, hf⟩ := h.ex
  have hc : ConstDoms dom := fun s cs hs => (hI s cs hs).1
  obtain ⟨hug, hfree⟩ := uc_qe dom hc (qdepth f) f (Nat.le_refl _) hu hb hr g hq
  have hnq := (C10_qe_modes dom f g).1 hq
  have hsem := C09_qe_equiv_partial dom .forall f g hb hr hq D I hI
  have hvars : ∀ v, Term.var v ∈ listedVariables ord g ↔ FreeF v f := by
    intro v
    rw [mem_listedVariables ho]
    constructor
    · rintro ⟨w, hw, h⟩
      cases hw
      rwa [occurs_free hug hnq, hfree] at h
    · intro h
      exact ⟨v, rfl, by rwa [occurs_free hug hnq, hfree]⟩
  have hvs : ∀ t ∈ listedVariables ord g, ∃ v, t = Term.var v := by
    intro t ht
    obtain ⟨v, rfl, -⟩ := (mem_listedVariables ho g t).1 ht
    exact ⟨v, rfl⟩
  have hcc := cart_consts dom hc _ k ls he
  have key : ∀ values ∈ cart ls, ∀ c, groundConstraint (walkF g) (createSubst (listedVariables ord g) values) = .ok c →
      ∀ σ, Sat I c σ ↔ Sat I f (updAsg I (createSubst (listedVariables ord g) values) σ) := by
    intro values hv c hgc σ
    rw [ground_one (zip_keysVar hvs) (zip_valsConst (hcc values hv)) hug hnq hgc I lt hl hcmp σ, hsem]
  have hindep : ∀ values ∈ cart ls, ∀ σ σ' : Asg D, ∀ v, FreeF v f →
      updAsg I (createSubst (listedVariables ord g) values) σ v = updAsg I (createSubst (listedVariables ord g) values) σ' v := by
    intro values hv σ σ' v hfv
    rcases visit_cases (zip_valsConst (vs := listedVariables ord g) (hcc values hv)) (.var v) with ⟨h3, h4⟩ | ⟨⟨n, so, h3⟩, -⟩
    · exfalso
      have hm := (hvars v).2 hfv
      obtain ⟨i, hi, hie⟩ := List.getElem_of_mem hm
      have hlen : values.length = (listedVariables ord g).length := enumLoop_len hvs he values hv
      refine h4 ((listedVariables ord g)[i], values[i]'(by omega)) ?_ hie
      have : ((listedVariables ord g).zip values)[i]'(by rw [List.length_zip]; omega) =
          ((listedVariables ord g)[i], values[i]'(by omega)) := by simp
      rw [createSubst, ← this]
      exact List.getElem_mem _
    · simp only [updAsg, h3, evalT]
  constructor
  · intro τ hτ
    obtain ⟨values, hv, hve⟩ := (tuples_spec I dom hI _ hvs k ls he ρ).2 τ (fun v hm => hτ v ((hvars v).1 hm))
    obtain ⟨c, hcm, hgc⟩ := (forall2_mem_left hf).1 values hv
    refine ⟨c, hcm, fun σ => ?_⟩
    rw [key values hv c hgc σ]
    apply sat_coinc
    intro v hfv
    rw [hindep values hv σ ρ v hfv, hve v ((hvars v).2 hfv)]
  · intro c hcm
    obtain ⟨values, hv, hgc⟩ := (forall2_mem_left hf).2 c hcm
    refine ⟨updAsg I (createSubst (listedVariables ord g) values) ρ, ?_, fun σ => ?_⟩
    · intro v hfv
      exact (tuples_spec I dom hI _ hvs k ls he ρ).1 values hv v ((hvars v).2 hfv)
    · rw [key values hv c hgc σ]
      apply sat_coinc
      intro v hfv
      exact hindep values hv σ ρ v hfv

/-! ### C81 -/

/-- C81: for universal constraints, every well-sorted choice of values for the free variables of a constraint has a ground
constraint that says the same, and every ground constraint comes from such a choice. -/
theorem C81_instances (dom : Domains) (ord : List Node → List Node) (ho : AnyOrder ord) (schemas : List Formula)
    (hs : ∀ f ∈ schemas, UC f ∧ VarBindersF f ∧ NoRebind f) (idx : SymIndex Formula) (n : Nat)
    (h : calculateConstraints dom ord schemas = .ok (idx, n)) (D : Type) (I : Interp D) (hI : DomOK I dom)
    (lt : D → D → Prop) (hl : IsLinear lt) (hcmp : StdCmp I lt) [Nonempty D] :
    (∀ f ∈ schemas, ∀ τ : Asg D, (∀ v, FreeF v f → I.sort v.sort (τ v)) →
      ∃ c ∈ idx.objects, ∀ σ, Sat I c σ ↔ Sat I f τ) ∧
    (∀ c ∈ idx.objects, ∃ f ∈ schemas, ∃ τ : Asg D, (∀ v, FreeF v f → I.sort v.sort (τ v)) ∧
      ∀ σ, Sat I c σ ↔ Sat I f τ) := by
  obtain ⟨-, css, h2, -, h4⟩ := groundSchemas_spec dom ord schemas _ _ _ _ cinv_empty h
  have hobj : idx.objects = (css.map (·.1)).flatten := by rw [h2]; simp [SymIndex.empty]
  have ρ : Asg D := fun _ => Classical.arbitrary D
  constructor
  · intro f hf τ hτ
    obtain ⟨p, hp, hg⟩ := (forall2_mem_left h4).1 f hf
    obtain ⟨a, b, c⟩ := hs f hf
    obtain ⟨d, hd, he⟩ := (schema_ground ho a b c hg I hI lt hl hcmp ρ).1 τ hτ
    refine ⟨d, ?_, he⟩
    rw [hobj]
    exact List.mem_flatten.2 ⟨_, List.mem_map.2 ⟨p, hp, rfl⟩, hd⟩
  · intro d hd
    rw [hobj] at hd
    obtain ⟨l, hl', hdl⟩ := List.mem_flatten.1 hd
    obtain ⟨p, hp, rfl⟩ := List.mem_map.1 hl'
    obtain ⟨f, hf, hg⟩ := (forall2_mem_left h4).2 p hp
    obtain ⟨a, b, c⟩ := hs f hf
    exact ⟨f, hf, (schema_ground ho a b c hg I hI lt hl hcmp ρ).2 d hdl⟩

/-- C81, the full statement: whenever the grounder returns, the ground constraints together say that every constraint
holds for all values of its free variables. -/
def C81_full : Prop := ∀ (dom : Domains) (ord : List Node → List Node), AnyOrder ord → ∀ (schemas : List Formula),
  (∀ f ∈ schemas, WF f ∧ CmpArity f ∧ NoIteF f ∧ NoRebind f) → ∀ (idx : SymIndex Formula) (n : Nat),
  calculateConstraints dom ord schemas = .ok (idx, n) → ∀ (D : Type) (I : Interp D), DomOK I dom → Nonempty D →
  ∀ lt : D → D → Prop, IsLinear lt → StdCmp I lt →
  ∀ σ : Asg D, (∀ c ∈ idx.objects, Sat I c σ) ↔ ∀ f ∈ schemas, HoldsForAll I f

/-- C81 (part that holds): the same for universal constraints with binary connectives; missing: constraints with
existential quantifiers and with flat conjunctions or disjunctions, where it is false. -/
theorem C81_constraints_partial (dom : Domains) (ord : List Node → List Node) (ho : AnyOrder ord) (schemas : List Formula)
    (hs : ∀ f ∈ schemas, UC f ∧ VarBindersF f ∧ NoRebind f) (idx : SymIndex Formula) (n : Nat)
    (h : calculateConstraints dom ord schemas = .ok (idx, n)) (D : Type) (I : Interp D) (hI : DomOK I dom)
    (lt : D → D → Prop) (hl : IsLinear lt) (hcmp : StdCmp I lt) [Nonempty D] (σ : Asg D) :
    (∀ c ∈ idx.objects, Sat I c σ) ↔ ∀ f ∈ schemas, HoldsForAll I f := by
  obtain ⟨h1, h2⟩ := C81_instances dom ord ho schemas hs idx n h D I hI lt hl hcmp
  constructor
  · intro hc f hf τ hτ
    obtain ⟨c, hm, he⟩ := h1 f hf τ hτ
    exact (he σ).1 (hc c hm)
  · intro hf c hm
    obtain ⟨f, hfm, τ, hτ, he⟩ := h2 c hm
    exact (he σ).2 (hf f hfm τ hτ)

/-- C81: the counter is the number of ground constraints, which are pairwise different (whatever the constraints). -/
theorem C81_count (dom : Domains) (ord : List Node → List Node) (schemas : List Formula) (idx : SymIndex Formula) (n : Nat)
    (h : calculateConstraints dom ord schemas = .ok (idx, n)) :
    idx.objects.Nodup ∧ idx.objects.length = n ∧ idx.len = n := by
  obtain ⟨h1, css, h2, h3, h4⟩ := groundSchemas_spec dom ord schemas _ _ _ _ cinv_empty h
  have hobj : idx.objects = (css.map (·.1)).flatten := by rw [h2]; simp [SymIndex.empty]
  have hlen : idx.objects.length = n := by
    rw [hobj, h3, Nat.zero_add]
    clear h1 h2 h3 hobj h
    induction h4 with
    | nil => rfl
    | cons hp _ ih =>
      obtain ⟨g, ls, -, he, hf⟩ := hp.ex
      simp only [List.map_cons, List.flatten_cons, List.length_append, List.sum_cons, ih]
      rw [← hf.length_eq, cart_length, ← enumLoop_card dom _ _ _ he]
  refine ⟨h1.nodup, hlen, ?_⟩
  rw [SymIndex.len, ← hlen, ← h1.keys, List.length_map]


/-! ### Examples and counterexamples -/

/-- `p(x)` or `r(x)` for a term -/
def cgAtom (p : String) (t : Term) : Formula := .atom (.user p) [t]
def cgX : Term := .var ⟨"x", "o"⟩
def cgY : Term := .var ⟨"y", "o"⟩
def cgA : Term := .const (.str "a") "o"
def cgB : Term := .const (.str "b") "o"

/-- `p(x) -> forall y. r(y)`, with `x` free. -/
def cgSample : Formula := implies (cgAtom "p" cgX) (.quant .forall [cgY] (cgAtom "r" cgY))

/-- Non-vacuity: the hypotheses hold for `cgSample` and a ground constraint is made for each of the two values of `x`. -/
example : UC cgSample ∧ VarBindersF cgSample ∧ NoRebind cgSample ∧ AnyOrder id := by
  refine ⟨?_, ?_, ?_, fun l => List.Perm.refl _⟩
  · exact .andor _ _ _ _ (by decide) (.not _ _ (.user _ _ ⟨trivial, trivial⟩)) (.all _ _ (.user _ _ ⟨trivial, trivial⟩))
  · simp [cgSample, implies, lor, createCompound, toBinaryTree, VarBindersF, VarBindersFs, VarBindersTs, VarBindersT, cgAtom, neg, cgX, cgY]
  · simp [cgSample, implies, lor, createCompound, toBinaryTree, NoRebind, NoRebinds, cgAtom, neg, cgX, cgY, BoundF, BoundTs, BoundT]

example : ∃ idx, calculateConstraints qeDom id [cgSample] = .ok (idx, 2) ∧
    idx.objects = [.comp .tuple .and [.comp .tuple .or [neg (cgAtom "p" cgA), cgAtom "r" cgA],
        .comp .tuple .or [neg (cgAtom "p" cgA), cgAtom "r" cgB]],
      .comp .tuple .and [.comp .tuple .or [neg (cgAtom "p" cgB), cgAtom "r" cgA],
        .comp .tuple .or [neg (cgAtom "p" cgB), cgAtom "r" cgB]]] := ⟨_, rfl, rfl⟩


/-- The interpretation whose objects are the two constants, in which exactly `a` has the property `p`. -/
def cgInterp : Interp Bool := ⟨fun n _ => decide (n = .str "a"), fun _ _ => false,
  fun p ds => match p with
    | .user _ => ds = [true]
    | .cmp c => ∃ x y, ds = [x, y] ∧ cmpRel (fun a b => a = false ∧ b = true) c x y, fun s _ => s = "o"⟩

theorem cgInterp_domOK : DomOK cgInterp qeDom := by
  intro s cs hs
  unfold qeDom at hs
  split at hs
  · rename_i h
    cases hs
    subst h
    refine ⟨by simp, fun d => ?_⟩
    simp only [cgInterp, true_iff]
    cases d
    · exact ⟨.str "b", "o", by simp, by decide⟩
    · exact ⟨.str "a", "o", by simp, by decide⟩
  · cases hs

theorem cgInterp_cmp : IsLinear (fun a b => a = false ∧ b = true) ∧ StdCmp cgInterp (fun a b => a = false ∧ b = true) := by
  refine ⟨⟨by decide, by decide, by decide⟩, ?_⟩
  intro c a b
  cases a <;> cases b <;> simp [cgInterp]

/-- C81 fails for the constraint `exists y. p(y)`: the bound variable is instantiated as well, so that the ground
constraints ask for `p` of every object. -/
theorem C81_refuted : ¬ C81_full := by
  intro H
  have h := H qeDom id (fun l => List.Perm.refl _) [.quant .exists [cgY] (cgAtom "p" cgY)]
    (by
      intro f hf
      rw [List.mem_singleton] at hf
      subst hf
      exact ⟨.quant _ _ _ (by simp) (by simp [cgY]) (.atom _ _), .quant _ _ _ (.user _ _), ⟨trivial, trivial⟩,
        by simp [NoRebind, cgAtom, BoundF, BoundTs, BoundT, cgY]⟩)
    _ 2 rfl Bool cgInterp cgInterp_domOK ⟨true⟩ _ cgInterp_cmp.1 cgInterp_cmp.2 (fun _ => true)
  have h2 := h.2 (by
    intro f hf
    rw [List.mem_singleton] at hf
    subst hf
    intro τ _
    exact ⟨true, rfl, by simp [Sat, quantBlock, cgAtom, cgInterp, evalTs, evalT, cgY, Asg.set]⟩)
    (.quant .exists [cgB] (cgAtom "p" cgB)) (by decide)
  simp [Sat, quantBlock, cgAtom, cgInterp, evalTs, evalT, cgB] at h2

/-- C81: nested existential quantifiers make the grounder raise: `forall x. exists y. q(x, y)` over two objects. -/
theorem C81_nested_exists_raises : calculateConstraints qeDom id
    [.quant .forall [cgX] (.quant .exists [cgY] (.atom (.user "q") [cgX, cgY]))] = .error .transformation := rfl

/-- C81: of a flat conjunction only two conjuncts survive: the ground constraint of `p(a) and p(a) and p(b)` does not
mention `b`. -/
theorem C81_flat_loses : ∃ idx, calculateConstraints qeDom id [land [cgAtom "p" cgA, cgAtom "p" cgA, cgAtom "p" cgB] true] = .ok (idx, 1) ∧
    idx.objects = [.comp .tuple .and [cgAtom "p" cgA, cgAtom "p" cgA]] := ⟨_, rfl, rfl⟩

/-- C81: two constraints with a common instance make the grounder raise. -/
theorem C81_duplicate_raises : calculateConstraints qeDom id [cgAtom "p" cgX, cgAtom "p" cgA] = .error .duplicateVariable := rfl

end Tarski

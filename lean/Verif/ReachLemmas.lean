import Verif.ReachSpec
import Verif.QELemmas
import Verif.ExSimpLemmas
import Verif.Props.QE
import Verif.EffectsLemmas
import Verif.Props.Grounding
import Mathlib.Tactic.Common
/-! Lemmas about the compilation into a reachability logic program. -/
namespace Tarski

/-! ### Flat formulas -/

theorem flatFs_iff {V : Var → Prop} {fs : List Formula} : FlatFs V fs ↔ ∀ f ∈ fs, FlatF V f := by
  induction fs with
  | nil => simp [FlatFs]
  | cons f fs ih => simp [FlatFs, ih]

theorem flatT_noIte {V} : ∀ {t : Term}, FlatT V t → NoIteT t
  | .var _, _ => trivial
  | .const _ _, _ => trivial
  | .app _ _, h => by simp [FlatT] at h
  | .ite _ _ _, h => by simp [FlatT] at h

theorem flatTs_noIte {V} : ∀ {ts : List Term}, (∀ t ∈ ts, FlatT V t) → NoIteTs ts
  | [], _ => trivial
  | t :: ts, h => ⟨flatT_noIte (h t (by simp)), flatTs_noIte fun t ht => h t (by simp [ht])⟩

theorem flatT_varBinders {V} : ∀ {t : Term}, FlatT V t → VarBindersT t
  | .var _, _ => trivial
  | .const _ _, _ => trivial
  | .app _ _, h => by simp [FlatT] at h
  | .ite _ _ _, h => by simp [FlatT] at h

theorem flatTs_varBinders {V} : ∀ {ts : List Term}, (∀ t ∈ ts, FlatT V t) → VarBindersTs ts
  | [], _ => trivial
  | t :: ts, h => ⟨flatT_varBinders (h t (by simp)), flatTs_varBinders fun t ht => h t (by simp [ht])⟩

mutual
theorem flatF_noIte {V} : ∀ {f : Formula}, FlatF V f → NoIteF f
  | .top, _ => trivial
  | .bot, _ => trivial
  | .atom _ _, h => flatTs_noIte h
  | .comp _ _ _, h => flatFs_noIte h
  | .quant _ _ f, h => (flatF_noIte (f := f) h.2 : NoIteF f)
theorem flatFs_noIte {V} : ∀ {fs : List Formula}, FlatFs V fs → NoIteFs fs
  | [], _ => trivial
  | _ :: _, h => ⟨flatF_noIte h.1, flatFs_noIte h.2⟩
end

mutual
theorem flatF_varBinders {V} : ∀ {f : Formula}, FlatF V f → VarBindersF f
  | .top, _ => trivial
  | .bot, _ => trivial
  | .atom _ _, h => flatTs_varBinders h
  | .comp _ _ _, h => flatFs_varBinders h
  | .quant _ _ _, h => ⟨fun t ht => by obtain ⟨v, hv, _⟩ := h.1 t ht; exact ⟨v, hv⟩, flatF_varBinders h.2⟩
theorem flatFs_varBinders {V} : ∀ {fs : List Formula}, FlatFs V fs → VarBindersFs fs
  | [], _ => trivial
  | _ :: _, h => ⟨flatF_varBinders h.1, flatFs_varBinders h.2⟩
end

theorem flatTs_not_bound {V} {v : Var} : ∀ {ts : List Term}, (∀ t ∈ ts, FlatT V t) → ¬ BoundTs v ts
  | [], _ => by simp [BoundTs]
  | t :: ts, h => by
    have ih := flatTs_not_bound (v := v) (ts := ts) fun t ht => h t (by simp [ht])
    have ht := h t (by simp)
    cases t <;> simp_all [BoundTs, BoundT, FlatT]

/-! ### An induction principle for the elimination of quantifiers -/

/-- Pointwise relation of two lists. -/
inductive Each (P : Formula → Formula → Prop) : List Formula → List Formula → Prop where
  | nil : Each P [] []
  | cons f g fs gs : P f g → Each P fs gs → Each P (f :: fs) (g :: gs)

theorem qe_induct (dom : Domains) (mode : QEMode) (P : Formula → Formula → Prop)
    (htop : P .top .top) (hbot : P .bot .bot) (hatom : ∀ p ts, P (.atom p ts) (.atom p ts))
    (hcomp : ∀ k c fs gs, Each P fs gs → P (.comp k c fs) (.comp .tuple c gs))
    (hkeep : ∀ q vs f g, mode.elim q = false → P f g → P (.quant q vs f) (.quant q vs g))
    (hexp : ∀ q vs f g' g, mode.elim q = true → expand dom vs f (creatorOf q) = .ok g' → P g' g → P (.quant q vs f) g) :
    ∀ f g, removeQuantifiers dom mode f = .ok g → P f g := by
  have main : ∀ n f, qdepth f ≤ n → ∀ g, removeQuantifiers dom mode f = .ok g → P f g := by
    intro n
    induction n with
    | zero =>
      intro f hf g h
      rw [removeQuantifiers_eq] at h
      induction f using Formula.induct generalizing g with
      | htop => simp only [qeWith, Except.ok.injEq] at h; subst h; exact htop
      | hbot => simp only [qeWith, Except.ok.injEq] at h; subst h; exact hbot
      | hatom p ts => simp only [qeWith, Except.ok.injEq] at h; subst h; exact hatom _ _
      | hcomp k c fs ih =>
        simp only [qeWith] at h
        cases e : qesWith (removeQuantifiers dom mode) dom mode fs with
        | error e' => simp [e] at h
        | ok gs =>
          simp only [e, Except.ok.injEq] at h
          subst h
          refine hcomp k c fs gs ?_
          simp only [qdepth] at hf
          clear k c
          induction fs generalizing gs with
          | nil => simp only [qesWith, Except.ok.injEq] at e; subst e; exact .nil
          | cons f fs ihl =>
            simp only [qdepths] at hf
            simp only [qesWith] at e
            cases e1 : qeWith (removeQuantifiers dom mode) dom mode f with
            | error e' => simp [e1] at e
            | ok g1 =>
              cases e2 : qesWith (removeQuantifiers dom mode) dom mode fs with
              | error e' => simp [e1, e2] at e
              | ok gs' =>
                simp only [e1, e2, Except.ok.injEq] at e
                subst e
                exact .cons _ _ _ _ (ih f (by simp) (by omega) g1 e1)
                  (ihl (fun f hf => ih f (by simp [hf])) (by omega) _ e2)
      | hquant q vs f ih => simp [qdepth] at hf
    | succ n ihn =>
      intro f hf g h
      rw [removeQuantifiers_eq] at h
      induction f using Formula.induct generalizing g with
      | htop => simp only [qeWith, Except.ok.injEq] at h; subst h; exact htop
      | hbot => simp only [qeWith, Except.ok.injEq] at h; subst h; exact hbot
      | hatom p ts => simp only [qeWith, Except.ok.injEq] at h; subst h; exact hatom _ _
      | hcomp k c fs ih =>
        simp only [qeWith] at h
        cases e : qesWith (removeQuantifiers dom mode) dom mode fs with
        | error e' => simp [e] at h
        | ok gs =>
          simp only [e, Except.ok.injEq] at h
          subst h
          refine hcomp k c fs gs ?_
          simp only [qdepth] at hf
          clear k c
          induction fs generalizing gs with
          | nil => simp only [qesWith, Except.ok.injEq] at e; subst e; exact .nil
          | cons f fs ihl =>
            simp only [qdepths] at hf
            simp only [qesWith] at e
            cases e1 : qeWith (removeQuantifiers dom mode) dom mode f with
            | error e' => simp [e1] at e
            | ok g1 =>
              cases e2 : qesWith (removeQuantifiers dom mode) dom mode fs with
              | error e' => simp [e1, e2] at e
              | ok gs' =>
                simp only [e1, e2, Except.ok.injEq] at e
                subst e
                exact .cons _ _ _ _ (ih f (by simp) (by omega) g1 e1)
                  (ihl (fun f hf => ih f (by simp [hf])) (by omega) _ e2)
      | hquant q vs f ih =>
        simp only [qdepth] at hf
        simp only [qeWith] at h
        split at h
        · rename_i hq
          cases he : expand dom vs f (creatorOf q) with
          | error e => simp [he] at h
          | ok g' =>
            simp only [he] at h
            exact hexp q vs f g' g hq he (ihn g' (by have := expand_depth he; omega) g h)
        · rename_i hq
          cases e1 : qeWith (removeQuantifiers dom mode) dom mode f with
          | error e' => simp [e1] at h
          | ok g1 =>
            simp only [e1, Except.ok.injEq] at h
            subst h
            exact hkeep q vs f g1 (by simpa using hq) (ih (by omega) g1 e1)
  intro f g h
  exact main (qdepth f) f (Nat.le_refl _) g h

theorem Each.mem_right {P : Formula → Formula → Prop} {fs gs} (h : Each P fs gs) : ∀ g ∈ gs, ∃ f ∈ fs, P f g := by
  induction h with
  | nil => simp
  | cons f g fs gs h1 _ ih =>
    intro g' hg
    rcases List.mem_cons.mp hg with rfl | hg
    · exact ⟨f, by simp, h1⟩
    · obtain ⟨f', hf', h'⟩ := ih g' hg
      exact ⟨f', by simp [hf'], h'⟩

theorem Each.mem_left {P : Formula → Formula → Prop} {fs gs} (h : Each P fs gs) : ∀ f ∈ fs, ∃ g ∈ gs, P f g := by
  induction h with
  | nil => simp
  | cons f g fs gs h1 _ ih =>
    intro g' hg
    rcases List.mem_cons.mp hg with rfl | hg
    · exact ⟨g, by simp, h1⟩
    · obtain ⟨f', hf', h'⟩ := ih g' hg
      exact ⟨f', by simp [hf'], h'⟩

/-! ### Substitution of constants -/

/-- Constants of the domains of the sorts of variables in `V` are not read as variables. -/
def GoodDom (V : Var → Prop) (dom : Domains) : Prop :=
  ∀ v, V v → ∀ cs, dom v.sort = .ok cs → ∀ n so, Term.const n so ∈ cs → isAspVar (nameText n) = false

/-- Values of the substitution are constants with good names. -/
def GoodVals (s : Subst) : Prop := ∀ kv ∈ s, ∃ n so, kv.2 = Term.const n so ∧ isAspVar (nameText n) = false

theorem GoodVals.consts {s : Subst} (h : GoodVals s) : ValsConst s :=
  fun kv hkv => by obtain ⟨n, so, h1, _⟩ := h kv hkv; exact ⟨n, so, h1⟩

theorem subT_flat {V} {s : Subst} (hs : KeysVar s) (hg : GoodVals s) {t : Term} (h : FlatT V t) : FlatT V (subT s t) := by
  cases t with
  | var v =>
    simp only [subT, Subst.visit]
    cases hv : s.get? (.var v) with
    | none => exact h
    | some u =>
      obtain ⟨n, so, he, hn⟩ := hg _ (get?_eq_some hv)
      simp only at he
      subst he
      exact hn
  | const n so => rw [subT, visit_nonvar hs (by simp)]; exact h
  | app f ts => simp [FlatT] at h
  | ite c a b => simp [FlatT] at h

theorem subTs_flat {V} {s : Subst} (hs : KeysVar s) (hg : GoodVals s) {ts : List Term} (h : ∀ t ∈ ts, FlatT V t) :
    ∀ t ∈ subTs s ts, FlatT V t := by
  intro t ht
  rw [subTs_eq_map] at ht
  obtain ⟨u, hu, rfl⟩ := List.mem_map.mp ht
  exact subT_flat hs hg (h u hu)

mutual
theorem subF_flat {V} {s : Subst} (hs : KeysVar s) (hg : GoodVals s) (f : Formula) (h : FlatF V f)
    (hf : ∀ v, BoundF v f → Fresh s v) : FlatF V (subF s f) := by
  match f with
  | .top => trivial
  | .bot => trivial
  | .atom p ts => exact subTs_flat hs hg h
  | .comp k c fs => exact subFs_flat hs hg fs h hf
  | .quant q vs f =>
    simp only [subF, FlatF]
    rw [subTs_binders (flatF_varBinders (f := .quant q vs f) h).1 (fun v hv => hf v (Or.inl hv))]
    exact ⟨h.1, subF_flat hs hg f h.2 (fun v hv => hf v (Or.inr hv))⟩
theorem subFs_flat {V} {s : Subst} (hs : KeysVar s) (hg : GoodVals s) (fs : List Formula) (h : FlatFs V fs)
    (hf : ∀ v, BoundFs v fs → Fresh s v) : FlatFs V (subFs s fs) := by
  match fs with
  | [] => trivial
  | f :: fs => exact ⟨subF_flat hs hg f h.1 (fun v hv => hf v (Or.inl hv)),
      subFs_flat hs hg fs h.2 (fun v hv => hf v (Or.inr hv))⟩
end

theorem enumLoop_shape {dom : Domains} : ∀ {vs : List Term} {n ls}, (∀ t ∈ vs, ∃ v, t = Term.var v) →
    enumLoop dom vs = .ok (n, ls) → List.Forall₂ (fun t l => ∃ v, t = Term.var v ∧ dom v.sort = .ok l) vs ls
  | [], n, ls, _, h => by
    simp only [enumLoop, Except.ok.injEq, Prod.mk.injEq] at h
    obtain ⟨_, rfl⟩ := h
    exact .nil
  | t :: vs, n, ls, hv, h => by
    obtain ⟨v, rfl⟩ := hv t (by simp)
    simp only [enumLoop] at h
    cases h1 : dom v.sort with
    | error e => simp [h1] at h
    | ok cs =>
      cases h2 : enumLoop dom vs with
      | error e => simp [h1, h2] at h
      | ok p =>
        obtain ⟨m, ls'⟩ := p
        simp only [h1, h2, Except.ok.injEq, Prod.mk.injEq] at h
        obtain ⟨_, rfl⟩ := h
        exact .cons ⟨v, rfl, h1⟩ (enumLoop_shape (fun t ht => hv t (by simp [ht])) h2)

theorem forall₂_comp_zip {vs : List Term} {ls : List (List Term)} {P : Term → List Term → Prop} (h : List.Forall₂ P vs ls) :
    ∀ {values : List Term}, List.Forall₂ (fun c l => c ∈ l) values ls →
      values.length = vs.length ∧ ∀ kv ∈ vs.zip values, ∃ l, P kv.1 l ∧ kv.2 ∈ l := by
  induction h with
  | nil => intro values hv; cases hv; simp
  | cons h1 _ ih =>
    intro values hv
    cases hv with
    | cons g1 g2 =>
      obtain ⟨i1, i2⟩ := ih g2
      refine ⟨by simp [i1], ?_⟩
      intro kv hkv
      rw [List.zip_cons_cons, List.mem_cons] at hkv
      rcases hkv with rfl | hkv
      · exact ⟨_, h1, g1⟩
      · exact i2 kv hkv

theorem zip_key_mem {vs values : List Term} (h : values.length = vs.length) {t : Term} (ht : t ∈ vs) :
    ∃ kv ∈ vs.zip values, kv.1 = t := by
  induction vs generalizing values with
  | nil => simp at ht
  | cons u vs ih =>
    cases values with
    | nil => simp at h
    | cons c values =>
      rcases List.mem_cons.mp ht with rfl | ht
      · exact ⟨(t, c), by simp, rfl⟩
      · obtain ⟨kv, h1, h2⟩ := ih (by simpa using h) ht
        exact ⟨kv, by simp [h1], h2⟩

/-- The substitutions used in an expansion. -/
theorem expand_substs {V : Var → Prop} {dom : Domains} (hc : ConstDoms dom) (hd : GoodDom V dom) {vs : List Term} {n ls}
    (hv : ∀ t ∈ vs, ∃ v, t = Term.var v ∧ V v) (h : enumLoop dom vs = .ok (n, ls)) {values} (hval : values ∈ cart ls) :
    KeysVar (createSubst vs values) ∧ GoodVals (createSubst vs values) ∧
    ∀ t ∈ vs, ∃ kv ∈ createSubst vs values, kv.1 = t := by
  have hv' : ∀ t ∈ vs, ∃ v, t = Term.var v := fun t ht => by obtain ⟨v, hv, _⟩ := hv t ht; exact ⟨v, hv⟩
  have h2 := forall₂_comp_zip (enumLoop_shape hv' h) ((mem_cart _ _).mp hval)
  refine ⟨zip_keysVar hv', ?_, fun t ht => zip_key_mem h2.1 ht⟩
  intro kv hkv
  obtain ⟨l, ⟨v, hk, hl⟩, hm⟩ := h2.2 kv hkv
  obtain ⟨n, so, hn⟩ := hc _ _ hl _ hm
  obtain ⟨v', hv', hV⟩ := hv kv.1 (List.of_mem_zip hkv).1
  rw [hk] at hv'
  cases hv'
  exact ⟨n, so, hn, hd v hV l hl n so (by rw [← hn]; exact hm)⟩

theorem boundFs_iff {v : Var} {fs : List Formula} : BoundFs v fs ↔ ∃ f ∈ fs, BoundF v f := by
  induction fs with
  | nil => simp [BoundFs]
  | cons f fs ih => simp [BoundFs, ih]

theorem noRebinds_iff {fs : List Formula} : NoRebinds fs ↔ ∀ f ∈ fs, NoRebind f := by
  induction fs with
  | nil => simp [NoRebinds]
  | cons f fs ih => simp [NoRebinds, ih]

/-- One expansion keeps a formula flat. -/
theorem expand_flat {V : Var → Prop} {dom : Domains} (hc : ConstDoms dom) (hd : GoodDom V dom) {q vs f g}
    (h : expand dom vs f (creatorOf q) = .ok g) (hf : FlatF V (.quant q vs f)) (hr : NoRebind (.quant q vs f)) :
    FlatF V g ∧ NoRebind g ∧ (∀ v, FreeF v g → FreeF v (.quant q vs f)) ∧ ∀ v, BoundF v g → BoundF v f := by
  have hb := flatF_varBinders hf
  have hs := expand_spec (mode := .all) hc hb hr h
  obtain ⟨n, ls, he, hn, rfl⟩ := expand_ok h
  have key : ∀ values ∈ cart ls, FlatF V (subF (createSubst vs values) f) ∧
      (∀ v, FreeF v (subF (createSubst vs values) f) → FreeF v (.quant q vs f)) ∧
      ∀ v, BoundF v (subF (createSubst vs values) f) → BoundF v f := by
    intro values hval
    obtain ⟨k1, k2, k3⟩ := expand_substs hc hd hf.1 he hval
    have hfr : ∀ v, BoundF v f → Fresh (createSubst vs values) v := by
      intro v hv
      apply fresh_const k2.consts
      intro kv hkv hk
      exact hr.2.1 v (hk ▸ (List.of_mem_zip hkv).1) hv
    refine ⟨subF_flat k1 k2 f hf.2 hfr, ?_, fun v => subF_bound k1 k2.consts v f⟩
    intro v hv
    rcases freeF_subF k1 v f hb.2 hfr hv with ⟨a, b⟩ | ⟨kv, a, b⟩
    · refine ⟨a, fun hm => ?_⟩
      obtain ⟨kv, c, d⟩ := k3 _ hm
      exact b kv c d
    · obtain ⟨n, so, e⟩ := k2.consts kv a
      rw [e] at b
      simp [FreeT] at b
  refine ⟨?_, hs.2.1, ?_, ?_⟩
  · refine creator_all (P := FlatF V) trivial trivial (fun c a b ha hb => ⟨ha, hb, trivial⟩) q _ ?_
    intro g hg
    obtain ⟨values, hv, rfl⟩ := List.mem_map.mp hg
    exact (key values hv).1
  · intro v
    refine creator_all (P := fun g => FreeF v g → FreeF v (.quant q vs f)) (by simp [FreeF]) (by simp [FreeF]) ?_ q _ ?_
    · intro c a b ha hb h
      simp only [FreeF, FreeFs, or_false] at h
      rcases h with h | h
      · exact ha h
      · exact hb h
    · intro g hg
      obtain ⟨values, hv, rfl⟩ := List.mem_map.mp hg
      exact (key values hv).2.1 v
  · intro v
    refine creator_all (P := fun g => BoundF v g → BoundF v f) (by simp [BoundF]) (by simp [BoundF]) ?_ q _ ?_
    · intro c a b ha hb h
      simp only [BoundF, BoundFs, or_false] at h
      rcases h with h | h
      · exact ha h
      · exact hb h
    · intro g hg
      obtain ⟨values, hv, rfl⟩ := List.mem_map.mp hg
      exact (key values hv).2.2 v

/-- Elimination of quantifiers keeps a formula flat. -/
theorem qe_flat {V : Var → Prop} {dom : Domains} (mode : QEMode) (hc : ConstDoms dom) (hd : GoodDom V dom) (f g : Formula)
    (h : removeQuantifiers dom mode f = .ok g) : FlatF V f → NoRebind f →
    FlatF V g ∧ NoRebind g ∧ (∀ v, FreeF v g → FreeF v f) ∧ ∀ v, BoundF v g → BoundF v f := by
  refine qe_induct dom mode (fun f g => FlatF V f → NoRebind f →
    FlatF V g ∧ NoRebind g ∧ (∀ v, FreeF v g → FreeF v f) ∧ ∀ v, BoundF v g → BoundF v f)
    ?_ ?_ ?_ ?_ ?_ ?_ f g h
  · exact fun h1 h2 => ⟨h1, h2, fun _ h => h, fun _ h => h⟩
  · exact fun h1 h2 => ⟨h1, h2, fun _ h => h, fun _ h => h⟩
  · exact fun p ts h1 h2 => ⟨h1, h2, fun _ h => h, fun _ h => h⟩
  · intro k c fs gs he h1 h2
    simp only [FlatF, flatFs_iff, NoRebind, noRebinds_iff, FreeF, freeFs_iff, BoundF, boundFs_iff] at h1 h2 ⊢
    refine ⟨?_, ?_, ?_, ?_⟩
    · intro g hg
      obtain ⟨f, hf, hp⟩ := he.mem_right g hg
      exact (hp (h1 f hf) (h2 f hf)).1
    · intro g hg
      obtain ⟨f, hf, hp⟩ := he.mem_right g hg
      exact (hp (h1 f hf) (h2 f hf)).2.1
    · rintro v ⟨g, hg, hv⟩
      obtain ⟨f, hf, hp⟩ := he.mem_right g hg
      exact ⟨f, hf, (hp (h1 f hf) (h2 f hf)).2.2.1 v hv⟩
    · rintro v ⟨g, hg, hv⟩
      obtain ⟨f, hf, hp⟩ := he.mem_right g hg
      exact ⟨f, hf, (hp (h1 f hf) (h2 f hf)).2.2.2 v hv⟩
  · intro q vs f g _ hp h1 h2
    obtain ⟨a, b, c, d⟩ := hp h1.2 h2.2.2
    exact ⟨⟨h1.1, a⟩, ⟨h2.1, fun v hv hb => h2.2.1 v hv (d v hb), b⟩, fun v hv => ⟨c v hv.1, hv.2⟩,
      fun v hv => hv.elim Or.inl (fun hv => Or.inr (d v hv))⟩
  · intro q vs f g' g _ he hp h1 h2
    obtain ⟨a, b, c, d⟩ := expand_flat hc hd he h1 h2
    obtain ⟨a', b', c', d'⟩ := hp a b
    exact ⟨a', b', fun v hv => c v (c' v hv), fun v hv => Or.inr (d v (d' v hv))⟩

end Tarski

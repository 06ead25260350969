import Mathlib.Tactic.Common
import Mathlib.Data.List.Forall2
import Mathlib.Data.List.Nodup
import Verif.ActionGround
import Verif.ProjectSpec
import Verif.Props.Subst
import Verif.Props.Constructors
/-! C65: grounding an action schema gives its instances. C66: the names of ground operators. -/
namespace Tarski

/-! ### Specification -/

mutual
/-- The variable is bound somewhere in the effect, by a quantifier or by a universal effect. -/
def BoundE (v : Var) : Effect → Prop
  | .add c _ ts => BoundF v c ∨ BoundTs v ts
  | .del c _ ts => BoundF v c ∨ BoundTs v ts
  | .lit c l => BoundF v c ∨ BoundF v l
  | .assign c _ ts r => BoundF v c ∨ BoundTs v ts ∨ BoundT v r
  | .univ c vs es => BoundF v c ∨ v ∈ vs ∨ BoundEs v es
def BoundEs (v : Var) : List Effect → Prop
  | [] => False
  | e :: es => BoundE v e ∨ BoundEs v es
end

mutual
/-- Quantifiers bind variables. -/
def VarBindersE : Effect → Prop
  | .add c _ ts => VarBindersF c ∧ VarBindersTs ts
  | .del c _ ts => VarBindersF c ∧ VarBindersTs ts
  | .lit c l => VarBindersF c ∧ VarBindersF l
  | .assign c _ ts r => VarBindersF c ∧ VarBindersTs ts ∧ VarBindersT r
  | .univ c _ es => VarBindersF c ∧ VarBindersEs es
def VarBindersEs : List Effect → Prop
  | [] => True
  | e :: es => VarBindersE e ∧ VarBindersEs es
end

/-- An action as the constructors make them, in which no quantifier and no universal effect re-binds a parameter. -/
structure PAction.NoRebinding (a : PAction) : Prop where
  nodup : a.params.Nodup
  pre : VarBindersF a.pre
  effs : VarBindersEs a.effs
  boundPre : ∀ v ∈ a.params, ¬ BoundF v a.pre
  boundEffs : ∀ v ∈ a.params, ¬ BoundEs v a.effs

/-- `τ` gives to the parameters the values of the constants, and is `σ` elsewhere. -/
structure Instantiates {D : Type} (I : Interp D) (params : List Var) (cs : List Const) (σ τ : Asg D) : Prop where
  values : List.Forall₂ (fun v c => τ v = I.const c.name c.sort) params cs
  rest : ∀ v, v ∉ params → τ v = σ v

/-- The constants that a grounding refers to. -/
def Refers (consts : Name → Option Const) (is : List GItem) (cs : List Const) : Prop :=
  List.Forall₂ (fun i c => i = .const c ∨ ∃ n, i = .name n ∧ consts (.str n) = some c) is cs

/-- All constants have strings as names. -/
def StringNames (cs : List Const) : Prop := ∀ c ∈ cs, ∃ n, c.name = .str n

/-! ### Lemmas -/

theorem find?_zip_fresh {v : Var} : ∀ (vs : List Var) (cs : List Const), v ∉ vs →
    (createSubst (vs.map Term.var) (cs.map (fun c => Term.const c.name c.sort))).get? (.var v) = none := by
  intro vs cs h
  rw [get?_eq_none]
  intro kv hkv
  have := (List.of_mem_zip hkv).1
  simp only [List.mem_map] at this
  obtain ⟨w, hw, e⟩ := this
  rw [← e]
  rintro h'
  cases h'
  exact h hw

theorem get?_cons_ne {kv : Term × Term} {s : Subst} {t : Term} (h : kv.1 ≠ t) : Subst.get? (kv :: s) t = s.get? t := by
  simp only [Subst.get?, List.reverse_cons, List.find?_append]
  have : List.find? (fun kv : Term × Term => kv.1 == t) [kv] = none := by
    simp [h]
  rw [this, Option.or_none]

theorem get?_cons_eq {kv : Term × Term} {s : Subst} (h : s.get? kv.1 = none) : Subst.get? (kv :: s) kv.1 = some kv.2 := by
  simp only [Subst.get?, Option.map_eq_none_iff] at h
  simp only [Subst.get?, List.reverse_cons, List.find?_append, h, Option.none_or]
  simp

theorem bind_get? : ∀ {vs : List Var} {cs : List Const}, vs.Nodup → vs.length = cs.length →
    List.Forall₂ (fun v c => (createSubst (vs.map Term.var) (cs.map (fun c => Term.const c.name c.sort))).get? (.var v) = some (.const c.name c.sort)) vs cs
  | [], [], _, _ => .nil
  | [], c :: cs, _, h => by simp at h
  | v :: vs, [], _, h => by simp at h
  | v :: vs, c :: cs, hn, hl => by
    have hv := (List.nodup_cons.1 hn)
    refine .cons ?_ ?_
    · exact get?_cons_eq (kv := (Term.var v, Term.const c.name c.sort)) (find?_zip_fresh vs cs hv.1)
    · have ih := bind_get? hv.2 (by simpa using hl)
      refine List.forall₂_iff_get.2 ⟨by simpa using hl, fun i h1 h2 => ?_⟩
      have := (List.forall₂_iff_get.1 ih).2 i h1 h2
      rw [← this]
      refine get?_cons_ne (kv := (Term.var v, Term.const c.name c.sort)) ?_
      simp only [List.get_eq_getElem, ne_eq, Term.var.injEq]
      intro e
      exact hv.1 (e ▸ List.getElem_mem h1)

theorem createSubst_vals {vs : List Var} {cs : List Const} {kv} 
    (h : kv ∈ createSubst (vs.map Term.var) (cs.map (fun c => Term.const c.name c.sort))) :
    (∃ v ∈ vs, kv.1 = .var v) ∧ ∃ c ∈ cs, kv.2 = .const c.name c.sort := by
  have := List.of_mem_zip h
  simp only [List.mem_map] at this
  obtain ⟨⟨v, hv, e1⟩, c, hc, e2⟩ := this
  exact ⟨⟨v, hv, e1.symm⟩, c, hc, e2.symm⟩

theorem updAsg_instantiates {D : Type} {I : Interp D} {vs : List Var} {cs : List Const} {σ τ : Asg D} (hn : vs.Nodup)
    (h : Instantiates I vs cs σ τ) :
    updAsg I (createSubst (vs.map Term.var) (cs.map (fun c => Term.const c.name c.sort))) σ = τ := by
  funext v
  have hl := h.values.length_eq
  by_cases hv : v ∈ vs
  · obtain ⟨i, hi, rfl⟩ := List.getElem_of_mem hv
    have h1 := (List.forall₂_iff_get.1 (bind_get? hn hl)).2 i hi (hl ▸ hi)
    have h2 := (List.forall₂_iff_get.1 h.values).2 i hi (hl ▸ hi)
    simp only [List.get_eq_getElem] at h1 h2
    simp only [updAsg, Subst.visit, h1, Option.getD_some, evalT, h2]
  · simp only [updAsg, Subst.visit, find?_zip_fresh vs cs hv, Option.getD_none, evalT, h.rest v hv]

mutual
theorem subT_idem {s : Subst} (hk : KeysVar s) (hc : ∀ kv ∈ s, ∃ n so, kv.2 = Term.const n so) (t : Term) :
    subT s (subT s t) = subT s t := by
  match t with
  | .var v =>
    simp only [subT, Subst.visit]
    cases hg : s.get? (.var v) with
    | none => simp only [Option.getD_none, subT, Subst.visit, hg]
    | some t =>
      obtain ⟨n, so, e⟩ := hc _ (get?_eq_some hg)
      simp only at e
      subst e
      simp only [Option.getD_some, subT]
      exact visit_nonvar hk (by simp)
  | .const n so => simp only [subT, visit_nonvar hk (t := .const n so) (by simp)]
  | .app f ts => simp only [subT, visit_nonvar hk (t := .app f (subTs s ts)) (by simp), subTs_idem hk hc ts]
  | .ite c a b => simp only [subT, visit_nonvar hk (t := .ite (subF s c) (subT s a) (subT s b)) (by simp), subT_idem hk hc a,
      subT_idem hk hc b, subF_idem hk hc c]
theorem subTs_idem {s : Subst} (hk : KeysVar s) (hc : ∀ kv ∈ s, ∃ n so, kv.2 = Term.const n so) (ts : List Term) :
    subTs s (subTs s ts) = subTs s ts := by
  match ts with
  | [] => rfl
  | t :: ts => simp only [subTs, subT_idem hk hc t, subTs_idem hk hc ts]
theorem subF_idem {s : Subst} (hk : KeysVar s) (hc : ∀ kv ∈ s, ∃ n so, kv.2 = Term.const n so) (f : Formula) :
    subF s (subF s f) = subF s f := by
  match f with
  | .top => rfl
  | .bot => rfl
  | .atom p ts => simp only [subF, subTs_idem hk hc ts]
  | .comp k c fs => simp only [subF, subFs_idem hk hc fs]
  | .quant q vs f => simp only [subF, subTs_idem hk hc vs, subF_idem hk hc f]
theorem subFs_idem {s : Subst} (hk : KeysVar s) (hc : ∀ kv ∈ s, ∃ n so, kv.2 = Term.const n so) (fs : List Formula) :
    subFs s (subFs s fs) = subFs s fs := by
  match fs with
  | [] => rfl
  | f :: fs => simp only [subFs, subF_idem hk hc f, subFs_idem hk hc fs]
end

theorem fresh_of_consts {s : Subst} (hc : ∀ kv ∈ s, ∃ n so, kv.2 = Term.const n so) {v : Var} (h : ∀ kv ∈ s, kv.1 ≠ .var v) :
    Fresh s v := fun kv hkv => ⟨h kv hkv, by obtain ⟨n, so, e⟩ := hc kv hkv; rw [e]; simp [FreeT]⟩

mutual
theorem subE_sem {D : Type} (I : Interp D) {s : Subst} (hk : KeysVar s) (hc : ∀ kv ∈ s, ∃ n so, kv.2 = Term.const n so)
    (e : Effect) (hb : VarBindersE e) (hf : ∀ v, BoundE v e → Fresh s v) (σ : Asg D) (ch : EChange D) :
    Demands I (subE s e) σ ch ↔ Demands I e (updAsg I s σ) ch := by
  match e with
  | .add c p ts =>
    simp only [subE, Demands, subF_sem I hk c hb.1 (fun v hv => hf v (.inl hv)) σ, subTs_sem I hk ts hb.2 (fun v hv => hf v (.inr hv)) σ]
  | .del c p ts =>
    simp only [subE, Demands, subF_sem I hk c hb.1 (fun v hv => hf v (.inl hv)) σ, subTs_sem I hk ts hb.2 (fun v hv => hf v (.inr hv)) σ]
  | .lit c l => simp only [subE, Demands]
  | .assign c f ts r =>
    simp only [subE, Demands, subF_sem I hk c hb.1 (fun v hv => hf v (.inl hv)) σ, subTs_sem I hk ts hb.2.1 (fun v hv => hf v (.inr (.inl hv))) σ,
      subT_sem I hk r hb.2.2 (fun v hv => hf v (.inr (.inr hv))) σ]
  | .univ c vs es =>
    have hvs : vs.filter (fun v => (s.get? (.var v)).isNone) = vs := by
      refine List.filter_eq_self.2 fun v hv => ?_
      have := hf v (.inr (.inl hv))
      rw [get?_eq_none.2 fun kv hkv => (this kv hkv).1]
      rfl
    simp only [subE, Demands, hvs, subF_idem hk hc, subF_sem I hk c hb.1 (fun v hv => hf v (.inl hv)) σ]
    refine and_congr_right fun _ => ?_
    refine quantBlock_upd I s .exists (fun σ => subEs_sem I hk hc es hb.2 (fun v hv => hf v (.inr (.inr hv))) σ ch) _ ?_ σ
    intro v hv
    simp only [List.mem_map, Term.var.injEq, exists_eq_right] at hv
    exact hf v (.inr (.inl hv))
theorem subEs_sem {D : Type} (I : Interp D) {s : Subst} (hk : KeysVar s) (hc : ∀ kv ∈ s, ∃ n so, kv.2 = Term.const n so)
    (es : List Effect) (hb : VarBindersEs es) (hf : ∀ v, BoundEs v es → Fresh s v) (σ : Asg D) (ch : EChange D) :
    DemandsAny I (subEs s es) σ ch ↔ DemandsAny I es (updAsg I s σ) ch := by
  match es with
  | [] => simp only [subEs, DemandsAny]
  | e :: es =>
    simp only [subEs, DemandsAny, subE_sem I hk hc e hb.1 (fun v hv => hf v (.inl hv)) σ ch,
      subEs_sem I hk hc es hb.2 (fun v hv => hf v (.inr hv)) σ ch]
end

/-! ### When grounding returns -/

/-- The substitution of the parameters by constants. -/
def instSubst (vs : List Var) (cs : List Const) : Subst :=
  createSubst (vs.map Term.var) (cs.map (fun c => Term.const c.name c.sort))

theorem instSubst_keys (vs : List Var) (cs : List Const) : KeysVar (instSubst vs cs) := fun kv hkv => by
  obtain ⟨⟨v, -, e⟩, -⟩ := createSubst_vals hkv
  exact ⟨v, e⟩

theorem instSubst_consts (vs : List Var) (cs : List Const) : ∀ kv ∈ instSubst vs cs, ∃ n so, kv.2 = Term.const n so := fun kv hkv => by
  obtain ⟨-, c, -, e⟩ := createSubst_vals hkv
  exact ⟨_, _, e⟩

theorem instSubst_fresh (vs : List Var) (cs : List Const) {v : Var} (h : v ∉ vs) : Fresh (instSubst vs cs) v :=
  fresh_of_consts (instSubst_consts vs cs) fun kv hkv e => by
    obtain ⟨⟨w, hw, e'⟩, -⟩ := createSubst_vals hkv
    rw [e'] at e
    cases e
    exact h hw

theorem checkBinding_ok {s : Subst} : ∀ {vs : List Var}, (∀ v ∈ vs, ∃ n so, s.get? (.var v) = some (.const n so)) →
    checkBinding s vs = .ok ()
  | [], _ => rfl
  | v :: vs, h => by
    obtain ⟨n, so, e⟩ := h v (by simp)
    simp only [checkBinding, e]
    exact checkBinding_ok fun w hw => h w (by simp [hw])

theorem checkNames_ok {s : Subst} : ∀ {vs : List Var}, (∀ v ∈ vs, ∃ n so, s.get? (.var v) = some (.const (.str n) so)) →
    checkNames s vs = .ok ()
  | [], _ => rfl
  | v :: vs, h => by
    obtain ⟨n, so, e⟩ := h v (by simp)
    simp only [checkNames, e]
    exact checkNames_ok fun w hw => h w (by simp [hw])

theorem checkNames_error {s : Subst} : ∀ {vs : List Var}, (∃ v ∈ vs, ∀ n so, s.get? (.var v) ≠ some (.const (.str n) so)) →
    checkNames s vs = .error .typeError
  | [], h => by simp at h
  | v :: vs, h => by
    simp only [checkNames]
    split
    · rename_i n so e
      obtain ⟨w, hw, h⟩ := h
      refine checkNames_error ⟨w, ?_, h⟩
      rcases List.mem_cons.1 hw with rfl | hw
      · exact absurd e (h n so)
      · exact hw
    · rfl

theorem checkBinding_error {s : Subst} : ∀ {vs : List Var}, (∃ v ∈ vs, s.get? (.var v) = none) →
    checkBinding s vs = .error .runtime
  | [], h => by simp at h
  | v :: vs, h => by
    simp only [checkBinding]
    split
    · rfl
    · rename_i n so e
      obtain ⟨w, hw, h⟩ := h
      refine checkBinding_error ⟨w, ?_, h⟩
      rcases List.mem_cons.1 hw with rfl | hw
      · rw [h] at e; cases e
      · exact hw
    · rfl

theorem instSubst_get? {vs : List Var} {cs : List Const} (hn : vs.Nodup) (hl : vs.length = cs.length) :
    List.Forall₂ (fun v c => (instSubst vs cs).get? (.var v) = some (.const c.name c.sort)) vs cs := bind_get? hn hl

theorem getItems_refers {consts : Name → Option Const} : ∀ {is cs}, getItems consts is = .ok cs ↔ Refers consts is cs
  | [], [] => by simp [getItems, Refers]
  | [], c :: cs => by simp [getItems, Refers]
  | .name n :: is, cs => by
    simp only [getItems, Refers]
    cases h1 : consts (.str n) with
    | none =>
      simp only [reduceCtorEq, false_iff]
      intro h
      cases h with
      | cons h _ => simp [h1] at h
    | some c =>
      cases h2 : getItems consts is with
      | error e =>
        simp only [reduceCtorEq, false_iff]
        intro h
        cases h with
        | cons _ h => rw [getItems_refers.2 h] at h2; cases h2
      | ok cs' =>
        simp only [Except.ok.injEq]
        constructor
        · rintro rfl
          exact .cons (.inr ⟨n, rfl, h1⟩) (getItems_refers.1 h2)
        · intro h
          cases h with
          | cons h h' =>
            rw [getItems_refers.2 h'] at h2
            simp only [Except.ok.injEq] at h2
            simp [h1] at h
            rw [h, h2]
  | .const c :: is, cs => by
    simp only [getItems, Refers]
    cases h2 : getItems consts is with
    | error e =>
      simp only [reduceCtorEq, false_iff]
      intro h
      cases h with
      | cons _ h => rw [getItems_refers.2 h] at h2; cases h2
    | ok cs' =>
      simp only [Except.ok.injEq]
      constructor
      · rintro rfl
        exact .cons (.inl rfl) (getItems_refers.1 h2)
      · intro h
        cases h with
        | cons h h' =>
          rw [getItems_refers.2 h'] at h2
          simp only [Except.ok.injEq] at h2
          simp at h
          rw [h, h2]

theorem mem_forall₂_left {α β} {R : α → β → Prop} {as : List α} {bs : List β} (h : List.Forall₂ R as bs) {a} (ha : a ∈ as) :
    ∃ b ∈ bs, R a b := by
  obtain ⟨i, hi, rfl⟩ := List.getElem_of_mem ha
  exact ⟨_, List.getElem_mem (h.length_eq ▸ hi), (List.forall₂_iff_get.1 h).2 i hi (h.length_eq ▸ hi)⟩

theorem mem_forall₂_right {α β} {R : α → β → Prop} {as : List α} {bs : List β} (h : List.Forall₂ R as bs) {b} (hb : b ∈ bs) :
    ∃ a ∈ as, R a b := by
  obtain ⟨i, hi, rfl⟩ := List.getElem_of_mem hb
  exact ⟨_, List.getElem_mem (h.length_eq ▸ hi), (List.forall₂_iff_get.1 h).2 i (h.length_eq ▸ hi) hi⟩

theorem bindParams_short {vs : List Var} {cs : List Const} (h : cs.length < vs.length) (hn : vs.Nodup) :
    ∃ v ∈ vs, (instSubst vs cs).get? (.var v) = none := by
  refine ⟨vs[cs.length], List.getElem_mem h, ?_⟩
  rw [get?_eq_none]
  intro kv hkv
  obtain ⟨i, hi, rfl⟩ := List.getElem_of_mem hkv
  simp only [instSubst, createSubst, List.length_zip, List.length_map] at hi
  simp only [instSubst, createSubst, List.getElem_zip, List.getElem_map, ne_eq, Term.var.injEq]
  intro e
  have := (List.Nodup.getElem_inj_iff hn).1 e
  omega

open Classical in
theorem checks_result {vs : List Var} {cs : List Const} (hn : vs.Nodup) (hl : cs.length = vs.length) :
    checkBinding (instSubst vs cs) vs = .ok () ∧
    checkNames (instSubst vs cs) vs = if StringNames cs then (.ok () : Except Err Unit) else .error .typeError := by
  have hg := instSubst_get? hn hl.symm
  refine ⟨checkBinding_ok fun v hv => ?_, ?_⟩
  · obtain ⟨c, -, e⟩ := mem_forall₂_left hg hv
    exact ⟨_, _, e⟩
  · split
    · rename_i h
      refine checkNames_ok fun v hv => ?_
      obtain ⟨c, hc, e⟩ := mem_forall₂_left hg hv
      obtain ⟨n, en⟩ := h c hc
      exact ⟨n, _, by rw [e, en]⟩
    · rename_i h
      simp only [StringNames, not_forall] at h
      obtain ⟨c, hc, h⟩ := h
      obtain ⟨v, hv, e⟩ := mem_forall₂_right hg hc
      refine checkNames_error ⟨v, hv, fun n so h' => h ⟨n, ?_⟩⟩
      rw [e] at h'
      simp only [Option.some.injEq, Term.const.injEq] at h'
      exact h'.1

/-! ### C65 -/

/-- C65, when grounding into a plain operator returns: exactly for groundings that refer to declared constants, as many as
there are parameters, all of them with a string as name. -/
theorem C65_returns (consts : Name → Option Const) (a : PAction) (hn : a.params.Nodup) (is : List GItem) :
    (∃ o, groundPlainFrom consts a is = .ok o) ↔
      ∃ cs, Refers consts is cs ∧ cs.length = a.params.length ∧ StringNames cs := by
  constructor
  · rintro ⟨o, ho⟩
    simp only [groundPlainFrom] at ho
    cases hi : getItems consts is with
    | error e => simp [hi] at ho
    | ok cs =>
      refine ⟨cs, getItems_refers.1 hi, ?_⟩
      simp only [hi, bindParams] at ho
      split at ho
      · simp at ho
      · rename_i s hb
        split at hb
        · cases hb
        · rename_i hlen
          cases hb
          have hlen : cs.length = a.params.length := by
            by_contra hne
            have := checkBinding_error (bindParams_short (cs := cs) (by omega) hn)
            simp only [instSubst] at this
            simp [groundPlain, groundSchema, this] at ho
          refine ⟨hlen, ?_⟩
          by_contra hs
          obtain ⟨h1, h2⟩ := checks_result hn hlen
          rw [if_neg hs] at h2
          simp only [instSubst] at h1 h2
          simp [groundPlain, groundSchema, h1, h2] at ho
  · rintro ⟨cs, hr, hlen, hs⟩
    obtain ⟨h1, h2⟩ := checks_result hn hlen
    rw [if_pos hs] at h2
    refine ⟨⟨instanceName a.name a.params (instSubst a.params cs), ⟨flatten (subF (instSubst a.params cs) a.pre), subEs (instSubst a.params cs) a.effs⟩⟩, ?_⟩
    simp only [instSubst] at h1 h2
    simp only [groundPlainFrom, getItems_refers.2 hr, bindParams, hlen, Nat.lt_irrefl, if_false, groundPlain, groundSchema, h1, h2, instSubst]

/-- C65, what is raised otherwise: `UndefinedConstant` for unknown names, `IndexError` for too many constants, `RuntimeError`
for too few, `TypeError` for names that are not strings. -/
theorem C65_raises (consts : Name → Option Const) (a : PAction) (hn : a.params.Nodup) (is : List GItem) :
    ((¬ ∃ cs, Refers consts is cs) → groundPlainFrom consts a is = .error .syntactic) ∧
    ∀ cs, Refers consts is cs →
      (a.params.length < cs.length → groundPlainFrom consts a is = .error .index) ∧
      (cs.length < a.params.length → groundPlainFrom consts a is = .error .runtime) ∧
      (cs.length = a.params.length → ¬ StringNames cs → groundPlainFrom consts a is = .error .typeError) := by
  refine ⟨fun h => ?_, fun cs hr => ⟨fun h => ?_, fun h => ?_, fun h hs => ?_⟩⟩
  · have : ∀ is, (¬ ∃ cs, Refers consts is cs) → getItems consts is = .error .syntactic := by
      intro is
      induction is with
      | nil => exact fun h => absurd ⟨[], .nil⟩ h
      | cons i is ih =>
        intro h
        cases i with
        | name n =>
          simp only [getItems]
          cases hc : consts (.str n) with
          | none => rfl
          | some c =>
            simp only
            rw [ih (fun ⟨cs, hcs⟩ => h ⟨c :: cs, .cons (.inr ⟨n, rfl, hc⟩) hcs⟩)]
        | const c =>
          simp only [getItems]
          rw [ih (fun ⟨cs, hcs⟩ => h ⟨c :: cs, .cons (.inl rfl) hcs⟩)]
    simp only [groundPlainFrom, this is h]
  · simp only [groundPlainFrom, getItems_refers.2 hr, bindParams, h, if_true]
  · have := checkBinding_error (bindParams_short h hn)
    simp only [instSubst] at this
    simp only [groundPlainFrom, getItems_refers.2 hr, bindParams, show ¬ a.params.length < cs.length by omega, if_false,
      groundPlain, groundSchema, this]
  · obtain ⟨h1, h2⟩ := checks_result hn h
    rw [if_neg hs] at h2
    simp only [instSubst] at h1 h2
    simp only [groundPlainFrom, getItems_refers.2 hr, bindParams, h, Nat.lt_irrefl, if_false, groundPlain, groundSchema, h1, h2]

theorem groundPlainFrom_ok {consts : Name → Option Const} {a : PAction} {is : List GItem} {cs : List Const} {o : PlainOp}
    (ho : groundPlainFrom consts a is = .ok o) (hr : Refers consts is cs) :
    o = ⟨instanceName a.name a.params (instSubst a.params cs), ⟨flatten (subF (instSubst a.params cs) a.pre), subEs (instSubst a.params cs) a.effs⟩⟩ := by
  simp only [groundPlainFrom, getItems_refers.2 hr, bindParams] at ho
  split at ho
  · cases ho
  · rename_i s hb
    split at hb
    · cases hb
    · cases hb
      simp only [groundPlain, groundSchema] at ho
      split at ho
      · cases ho
      · rename_i o' ho'
        cases ho
        split at ho'
        · cases ho'
        · split at ho'
          · cases ho'
          · cases ho'; rfl

/-- The full statement of C65 for plain operators: the operator is applicable where the precondition holds for the given values
of the parameters, and demands the changes that the effects demand for them. -/
def C65_full : Prop := ∀ (consts : Name → Option Const) (a : PAction) (is : List GItem) (cs : List Const) (o : PlainOp),
  a.params.Nodup → VarBindersF a.pre → VarBindersEs a.effs → groundPlainFrom consts a is = .ok o → Refers consts is cs →
  ∀ (D : Type) (I : Interp D) (σ τ : Asg D), Instantiates I a.params cs σ τ →
    (Sat I o.op.pre σ ↔ Sat I a.pre τ) ∧ ∀ ch, DemandsAny I o.op.effs σ ch ↔ DemandsAny I a.effs τ ch

/-- C65, proved part: for actions that do not re-bind their parameters. -/
theorem C65_instance_partial (consts : Name → Option Const) (a : PAction) (is : List GItem) (cs : List Const) (o : PlainOp)
    (ha : a.NoRebinding) (ho : groundPlainFrom consts a is = .ok o) (hr : Refers consts is cs)
    (D : Type) (I : Interp D) (σ τ : Asg D) (hτ : Instantiates I a.params cs σ τ) :
    (Sat I o.op.pre σ ↔ Sat I a.pre τ) ∧ ∀ ch, DemandsAny I o.op.effs σ ch ↔ DemandsAny I a.effs τ ch := by
  have hu : updAsg I (instSubst a.params cs) σ = τ := updAsg_instantiates ha.nodup hτ
  rw [groundPlainFrom_ok ho hr]
  refine ⟨?_, fun ch => ?_⟩
  · rw [← C12_flatten_equiv _ D I σ, subF_sem I (instSubst_keys _ _) a.pre ha.pre
      (fun v hv => instSubst_fresh _ _ fun hm => ha.boundPre v hm hv) σ, hu]
  · rw [subEs_sem I (instSubst_keys _ _) (instSubst_consts _ _) a.effs ha.effs
      (fun v hv => instSubst_fresh _ _ fun hm => ha.boundEffs v hm hv) σ ch, hu]

/-- Non-vacuity: `move(x, y)` with a quantified precondition and a universal effect, grounded with a name and a constant. -/
def exMove : PAction where
  name := "move"
  params := [⟨"x", "o"⟩, ⟨"y", "o"⟩]
  pre := .comp .tuple .and [.atom (.user "at") [.var ⟨"x", "o"⟩], .quant .exists [.var ⟨"z", "o"⟩] (.atom (.user "on") [.var ⟨"y", "o"⟩, .var ⟨"z", "o"⟩])]
  effs := [.add .top (.user "at") [.var ⟨"y", "o"⟩], .univ .top [⟨"z", "o"⟩] [.del (.atom (.user "p") [.var ⟨"z", "o"⟩]) (.user "on") [.var ⟨"z", "o"⟩, .var ⟨"x", "o"⟩]]]
  cost := some (.const (.int 3) "Integer")

/-- The constants `a` and `b` are declared. -/
def exMoveConsts : Name → Option Const
  | .str "a" => some ⟨.str "a", "o"⟩
  | .str "b" => some ⟨.str "b", "o"⟩
  | _ => none

theorem exMove_noRebinding : exMove.NoRebinding where
  nodup := by decide
  pre := by simp [exMove, VarBindersF, VarBindersFs, VarBindersTs, VarBindersT]
  effs := by simp [exMove, VarBindersEs, VarBindersE, VarBindersF, VarBindersTs, VarBindersT]
  boundPre := by
    intro v hv h
    simp [exMove, BoundF, BoundFs, BoundTs, BoundT] at hv h
    subst h
    simp at hv
  boundEffs := by
    intro v hv h
    simp [exMove, BoundEs, BoundE, BoundF, BoundTs, BoundT] at hv h
    subst h
    simp at hv

example : Refers exMoveConsts [.name "a", .const ⟨.str "b", "o"⟩] [⟨.str "a", "o"⟩, ⟨.str "b", "o"⟩] ∧
    (∃ o, groundPlainFrom exMoveConsts exMove [.name "a", .const ⟨.str "b", "o"⟩] = .ok o ∧ o.name = "move(a, b)") ∧
    groundPlainFrom exMoveConsts exMove [.name "a", .name "c"] = .error .syntactic ∧
    groundPlainFrom exMoveConsts exMove [.name "a"] = .error .runtime ∧
    groundPlainFrom exMoveConsts exMove [.name "a", .name "b", .name "a"] = .error .index ∧
    groundPlainFrom exMoveConsts exMove [.name "a", .const ⟨.int 1, "Integer"⟩] = .error .typeError := by
  refine ⟨?_, ⟨_, rfl, rfl⟩, rfl, rfl, rfl, rfl⟩
  exact .cons (.inr ⟨"a", rfl, rfl⟩) (.cons (.inl rfl) .nil)

/-- An action with parameter `x` whose universal effect, over a variable that is `x` again, adds `p(x)` for all objects. -/
def exRebind : PAction where
  name := "all"
  params := [⟨"x", "o"⟩]
  pre := .top
  effs := [.univ .top [⟨"x", "o"⟩] [.add .top (.user "p") [.var ⟨"x", "o"⟩]]]
  cost := none

/-- C65 is false as stated: grounding removes the re-bound variable from the universal effect, so that the ground operator only
adds `p` of the parameter. -/
theorem C65_refuted : ¬ C65_full := by
  intro h
  have := (h exMoveConsts exRebind [.name "a"] [⟨.str "a", "o"⟩] _ (by decide) (by simp [exRebind, VarBindersF])
    (by simp [exRebind, VarBindersEs, VarBindersE, VarBindersF, VarBindersTs, VarBindersT]) rfl (.cons (.inr ⟨"a", rfl, rfl⟩) .nil)
    Bool ⟨fun _ _ => false, fun _ _ => false, fun _ _ => True, fun _ _ => True⟩ (fun _ => false) (fun _ => false)
    ⟨.cons rfl .nil, fun _ _ => rfl⟩).2 (.add (.user "p") [true])
  simp [exRebind, subEs, subE, DemandsAny, Demands, Sat, quantBlock, evalTs, evalT, Asg.set, subF, subTs, subT, Subst.visit,
    Subst.get?, createSubst] at this

/-! ### All instances together -/

/-- The objects of the sort of each parameter are the values of the constants of the sort. -/
def NamedObjects {D : Type} (I : Interp D) (dom : String → List Const) (params : List Var) : Prop :=
  ∀ v ∈ params, ∀ d, I.sort v.sort d ↔ ∃ c ∈ dom v.sort, d = I.const c.name c.sort

/-- The constants are declared, and their names are strings. -/
def DeclaredConsts (consts : Name → Option Const) (dom : String → List Const) : Prop :=
  ∀ s, ∀ c ∈ dom s, consts c.name = some c ∧ ∃ n, c.name = .str n

theorem getConstants_names {consts : Name → Option Const} : ∀ {cs : List Const}, (∀ c ∈ cs, consts c.name = some c) →
    getConstants consts (cs.map (·.name)) = .ok cs
  | [], _ => rfl
  | c :: cs, h => by
    simp only [List.map_cons, getConstants, h c (by simp), getConstants_names (cs := cs) fun c hc => h c (by simp [hc])]

theorem groundAction_ok {consts : Name → Option Const} {a : PAction} {cs : List Const} (hn : a.params.Nodup)
    (hc : ∀ c ∈ cs, consts c.name = some c) (hs : StringNames cs) (hl : cs.length = a.params.length) :
    groundAction consts a (cs.map (·.name)) = .ok ⟨instanceName a.name a.params (instSubst a.params cs), [],
      subF (instSubst a.params cs) a.pre, subEs (instSubst a.params cs) a.effs, none⟩ := by
  obtain ⟨h1, h2⟩ := checks_result hn hl
  rw [if_pos hs] at h2
  simp only [instSubst] at h1 h2
  simp only [groundAction, getConstants_names hc, bindParams, hl, Nat.lt_irrefl, if_false, h1, h2, instSubst]

/-- C65, the outcome of `ground_schema` for every list of names: `UndefinedConstant` when some name is not declared;
otherwise an `IndexError` for too many, a `RuntimeError` for too few, a `TypeError` for names that are not strings, and an
action without parameters for the rest. -/
theorem C65_action_outcome (consts : Name → Option Const) (a : PAction) (hn : a.params.Nodup) (names : List Name) :
    ((∃ n ∈ names, consts n = none) → groundAction consts a names = .error .syntactic) ∧
    ((∀ n ∈ names, consts n ≠ none) →
      (a.params.length < names.length → groundAction consts a names = .error .index) ∧
      (names.length < a.params.length → groundAction consts a names = .error .runtime) ∧
      (names.length = a.params.length → (∃ n ∈ names, ∃ c, consts n = some c ∧ ∀ t, c.name ≠ .str t) →
        groundAction consts a names = .error .typeError) ∧
      (names.length = a.params.length → (∀ n ∈ names, ∃ c t, consts n = some c ∧ c.name = .str t) →
        ∃ g, groundAction consts a names = .ok g ∧ g.params = [])) := by
  have bad : ∀ ns : List Name, (∃ n ∈ ns, consts n = none) → getConstants consts ns = .error .syntactic := by
    intro ns
    induction ns with
    | nil => simp
    | cons n ns ih =>
      intro h
      simp only [getConstants]
      cases hc : consts n with
      | none => rfl
      | some c =>
        obtain ⟨m, hm, e⟩ := h
        simp only [List.mem_cons] at hm
        rcases hm with rfl | hm
        · rw [hc] at e; cases e
        · simp only [ih ⟨m, hm, e⟩]
  have good : ∀ ns : List Name, (∀ n ∈ ns, consts n ≠ none) →
      ∃ cs, getConstants consts ns = .ok cs ∧ List.Forall₂ (fun n c => consts n = some c) ns cs := by
    intro ns
    induction ns with
    | nil => exact fun _ => ⟨[], rfl, .nil⟩
    | cons n ns ih =>
      intro h
      obtain ⟨cs, h1, h2⟩ := ih fun m hm => h m (by simp [hm])
      cases hc : consts n with
      | none => exact absurd hc (h n (by simp))
      | some c => exact ⟨c :: cs, by simp only [getConstants, hc, h1], .cons hc h2⟩
  refine ⟨fun h => by simp only [groundAction, bad names h], fun h => ?_⟩
  obtain ⟨cs, h1, h2⟩ := good names h
  have hl := h2.length_eq
  rw [hl]
  refine ⟨fun hlt => ?_, fun hlt => ?_, fun he hs => ?_, fun he hs => ?_⟩
  · simp only [groundAction, h1, bindParams, hlt, if_true]
  · have := checkBinding_error (bindParams_short hlt hn)
    simp only [instSubst] at this
    simp only [groundAction, h1, bindParams, show ¬ a.params.length < cs.length by omega, if_false, this]
  · have hs' : ¬ StringNames cs := fun hall => by
      obtain ⟨n, hn', c, hc, hno⟩ := hs
      obtain ⟨c', hc', e⟩ := mem_forall₂_left h2 hn'
      rw [hc] at e
      cases e
      obtain ⟨t, ht⟩ := hall c hc'
      exact hno t ht
    obtain ⟨e1, e2⟩ := checks_result hn he
    rw [if_neg hs'] at e2
    simp only [instSubst] at e1 e2
    simp only [groundAction, h1, bindParams, he, Nat.lt_irrefl, if_false, e1, e2]
  · have hs' : StringNames cs := fun c hc => by
      obtain ⟨n, hn', e⟩ := mem_forall₂_right h2 hc
      obtain ⟨c', t, hc', ht⟩ := hs n hn'
      rw [e] at hc'
      cases hc'
      exact ⟨t, ht⟩
    obtain ⟨e1, e2⟩ := checks_result hn he
    rw [if_pos hs'] at e2
    simp only [instSubst] at e1 e2
    refine ⟨⟨instanceName a.name a.params (instSubst a.params cs), [], subF (instSubst a.params cs) a.pre,
      subEs (instSubst a.params cs) a.effs, none⟩, ?_, rfl⟩
    simp only [groundAction, h1, bindParams, he, Nat.lt_irrefl, if_false, e1, e2, instSubst]

/-- Non-vacuity: both branches occur. -/
example : groundAction exMoveConsts exMove [.str "a", .str "z"] = .error .syntactic ∧
    groundAction exMoveConsts exMove [.str "a"] = .error .runtime ∧
    (∃ g, groundAction exMoveConsts exMove [.str "a", .str "b"] = .ok g) := ⟨rfl, rfl, _, rfl⟩

/-- The full statement of C65 for `ground_schema`: the transitions of the action are those of its ground instances. -/
def C65_union_full : Prop := ∀ (consts : Name → Option Const) (dom : String → List Const) (a : PAction), DeclaredConsts consts dom →
  a.params.Nodup → VarBindersF a.pre → VarBindersEs a.effs →
  ∀ (D : Type) (I : Interp D), NamedObjects I dom a.params → ∀ (C : EChange D → Prop) (k : Option D),
    Transition I a C k ↔
      ∃ cs, List.Forall₂ (fun v c => c ∈ dom v.sort) a.params cs ∧
        ∃ g, groundAction consts a (cs.map (·.name)) = .ok g ∧ g.params = [] ∧ Transition I g C k

/-- C65, proved part: up to the cost, and for actions that do not re-bind their parameters. -/
theorem C65_union_partial (consts : Name → Option Const) (dom : String → List Const) (a : PAction) (hd : DeclaredConsts consts dom)
    (ha : a.NoRebinding) (D : Type) (I : Interp D) (hI : NamedObjects I dom a.params) (C : EChange D → Prop) (k : Option D) :
    Transition I { a with cost := none } C k ↔
      ∃ cs, List.Forall₂ (fun v c => c ∈ dom v.sort) a.params cs ∧
        ∃ g, groundAction consts a (cs.map (·.name)) = .ok g ∧ g.params = [] ∧ Transition I g C k := by
  have key : ∀ cs, List.Forall₂ (fun v c => c ∈ dom v.sort) a.params cs →
      groundAction consts a (cs.map (·.name)) = .ok ⟨instanceName a.name a.params (instSubst a.params cs), [],
        subF (instSubst a.params cs) a.pre, subEs (instSubst a.params cs) a.effs, none⟩ := fun cs hcs => by
    refine groundAction_ok ha.nodup (fun c hc => ?_) (fun c hc => ?_) hcs.length_eq.symm
    · obtain ⟨v, -, h⟩ := mem_forall₂_right hcs hc
      exact (hd _ c h).1
    · obtain ⟨v, -, h⟩ := mem_forall₂_right hcs hc
      exact (hd _ c h).2
  have sem : ∀ (cs : List Const) (σ τ : Asg D), Instantiates I a.params cs σ τ →
      (Sat I (subF (instSubst a.params cs) a.pre) σ ↔ Sat I a.pre τ) ∧
      ∀ ch, DemandsAny I (subEs (instSubst a.params cs) a.effs) σ ch ↔ DemandsAny I a.effs τ ch := fun cs σ τ hτ => by
    have hu : updAsg I (instSubst a.params cs) σ = τ := updAsg_instantiates ha.nodup hτ
    refine ⟨?_, fun ch => ?_⟩
    · rw [subF_sem I (instSubst_keys _ _) a.pre ha.pre (fun v hv => instSubst_fresh _ _ fun hm => ha.boundPre v hm hv) σ, hu]
    · rw [subEs_sem I (instSubst_keys _ _) (instSubst_consts _ _) a.effs ha.effs
        (fun v hv => instSubst_fresh _ _ fun hm => ha.boundEffs v hm hv) σ ch, hu]
  constructor
  · rintro ⟨σ, h1, h2, h3, h4⟩
    simp only at h1 h2 h3 h4
    have : ∀ vs : List Var, (∀ v ∈ vs, v ∈ a.params) → ∃ cs : List Const,
        List.Forall₂ (fun v c => c ∈ dom v.sort) vs cs ∧ List.Forall₂ (fun v c => σ v = I.const c.name c.sort) vs cs := by
      intro vs
      induction vs with
      | nil => exact fun _ => ⟨[], .nil, .nil⟩
      | cons v vs ih =>
        intro h
        obtain ⟨cs, e1, e2⟩ := ih fun w hw => h w (by simp [hw])
        obtain ⟨c, hc, e⟩ := (hI v (h v (by simp)) (σ v)).1 (h1 v (h v (by simp)))
        exact ⟨c :: cs, .cons hc e1, .cons e e2⟩
    obtain ⟨cs, e1, e2⟩ := this a.params fun v hv => hv
    refine ⟨cs, e1, _, key cs e1, rfl, σ, by simp, ?_, fun ch => ?_, h4⟩
    · exact (sem cs σ σ ⟨e2, fun _ _ => rfl⟩).1.2 h2
    · exact (h3 ch).trans ((sem cs σ σ ⟨e2, fun _ _ => rfl⟩).2 ch).symm
  · rintro ⟨cs, hcs, g, hg, -, σ, -, h2, h3, h4⟩
    rw [key cs hcs] at hg
    cases hg
    simp only at h2 h3 h4
    have hl := hcs.length_eq
    have hτ : Instantiates I a.params cs σ (updAsg I (instSubst a.params cs) σ) := by
      constructor
      · refine List.forall₂_iff_get.2 ⟨hl, fun i hi1 hi2 => ?_⟩
        have := (List.forall₂_iff_get.1 (instSubst_get? ha.nodup hl)).2 i hi1 hi2
        simp only [updAsg, Subst.visit, this, Option.getD_some, evalT]
      · intro v hv
        simp only [updAsg, Subst.visit, instSubst, find?_zip_fresh a.params cs hv, Option.getD_none, evalT]
    refine ⟨updAsg I (instSubst a.params cs) σ, ?_, (sem cs σ _ hτ).1.1 h2, fun ch => (h3 ch).trans ((sem cs σ _ hτ).2 ch), h4⟩
    intro v hv
    obtain ⟨i, hi, rfl⟩ := List.getElem_of_mem hv
    have e1 := (List.forall₂_iff_get.1 hτ.values).2 i hi (hl ▸ hi)
    have e2 := (List.forall₂_iff_get.1 hcs).2 i hi (hl ▸ hi)
    simp only [List.get_eq_getElem] at e1 e2
    exact (hI _ hv _).2 ⟨_, e2, e1⟩

/-- Non-vacuity: two objects, named `a` and `b`. -/
def exMoveDom (_ : String) : List Const := [⟨.str "a", "o"⟩, ⟨.str "b", "o"⟩]

theorem exMoveDom_declared : DeclaredConsts exMoveConsts exMoveDom := by
  intro s c hc
  simp only [exMoveDom, List.mem_cons, List.not_mem_nil, or_false] at hc
  rcases hc with rfl | rfl <;> exact ⟨rfl, _, rfl⟩

/-- The interpretation over two objects in which everything holds. -/
def exMoveI : Interp Bool := ⟨fun n _ => n == .str "a", fun _ _ => false, fun _ _ => True, fun _ _ => True⟩

theorem exMoveI_named (vs : List Var) : NamedObjects exMoveI exMoveDom vs := by
  intro v _ d
  simp [exMoveI, exMoveDom]
  cases d <;> decide

example : ∃ C k, Transition exMoveI { exMove with cost := none } C k := by
  refine ⟨_, _, fun _ => true, fun _ _ => trivial, ?_, fun _ => Iff.rfl, rfl⟩
  simp [exMove, Sat, SatAll, quantBlock, exMoveI]

/-- C65 is false for `ground_schema` as stated: the ground action has no cost. -/
theorem C65_cost_refuted : ¬ C65_union_full := by
  intro h
  have := (h exMoveConsts exMoveDom exMove exMoveDom_declared exMove_noRebinding.nodup exMove_noRebinding.pre exMove_noRebinding.effs
    Bool exMoveI (exMoveI_named _) (fun ch => DemandsAny exMoveI exMove.effs (fun _ => true) ch) (some false)).1
    ⟨fun _ => true, fun _ _ => trivial, by simp [exMove, Sat, SatAll, quantBlock, exMoveI], fun _ => Iff.rfl, by simp [exMove, evalT, exMoveI]⟩
  obtain ⟨cs, hcs, g, hg, -, σ, -, -, -, hk⟩ := this
  have : groundAction exMoveConsts exMove (cs.map (·.name)) = .ok _ := groundAction_ok (a := exMove) exMove_noRebinding.nodup
    (fun c hc => by obtain ⟨v, -, h⟩ := mem_forall₂_right hcs hc; exact (exMoveDom_declared _ c h).1)
    (fun c hc => by obtain ⟨v, -, h⟩ := mem_forall₂_right hcs hc; exact (exMoveDom_declared _ c h).2) hcs.length_eq.symm
  rw [this] at hg
  cases hg
  simp at hk

/-- The sorts of the constants are not checked: the action is instantiated with an object that is not of the sort of its
parameter. -/
theorem C65_sort_refuted : ∃ g, groundAction (fun n => if n = .str "t" then some ⟨.str "t", "table"⟩ else none)
    ⟨"pick", [⟨"x", "block"⟩], .top, [.add .top (.user "held") [.var ⟨"x", "block"⟩]], none⟩ [.str "t"] = .ok g ∧
    g.effs = [.add .top (.user "held") [.const (.str "t") "table"]] := ⟨_, rfl, rfl⟩

/-! ### C66: names -/

theorem split_at_char {c : Char} : ∀ {a b r s : List Char}, c ∉ a → c ∉ b → a ++ c :: r = b ++ c :: s → a = b ∧ r = s
  | [], [], r, s, _, _, h => by simpa using h
  | [], y :: b, r, s, _, hb, h => by
    simp only [List.nil_append, List.cons_append, List.cons.injEq] at h
    simp [h.1] at hb
  | x :: a, [], r, s, ha, _, h => by
    simp only [List.nil_append, List.cons_append, List.cons.injEq] at h
    simp [← h.1] at ha
  | x :: a, y :: b, r, s, ha, hb, h => by
    simp only [List.cons_append, List.cons.injEq] at h
    simp only [List.mem_cons, not_or] at ha hb
    obtain ⟨h1, h2⟩ := split_at_char ha.2 hb.2 h.2
    exact ⟨by rw [h.1, h1], h2⟩

theorem joinNames_inj : ∀ {xs ys : List String}, xs.length = ys.length → (∀ x ∈ xs, ',' ∉ x.toList) → (∀ y ∈ ys, ',' ∉ y.toList) →
    joinNames xs = joinNames ys → xs = ys
  | [], [], _, _, _, _ => rfl
  | [], _ :: _, h, _, _, _ => by simp at h
  | _ :: _, [], h, _, _, _ => by simp at h
  | [x], [y], _, _, _, h => by simpa [joinNames] using h
  | [x], y :: z :: ys, h, _, _, _ => by simp at h
  | x :: z :: xs, [y], h, _, _, _ => by simp at h
  | x :: x' :: xs, y :: y' :: ys, hl, hx, hy, h => by
    have h' := congrArg String.toList h
    simp only [joinNames, String.toList_append] at h'
    rw [List.append_assoc, List.append_assoc] at h'
    have hc : (", " : String).toList = [',', ' '] := by decide
    rw [hc] at h'
    simp only [List.cons_append, List.nil_append] at h'
    obtain ⟨h1, h2⟩ := split_at_char (hx x (by simp)) (hy y (by simp)) h'
    simp only [List.cons.injEq, true_and] at h2
    have ih := joinNames_inj (xs := x' :: xs) (ys := y' :: ys) (by simpa using hl) (fun x hx' => hx x (by simp only [List.mem_cons] at hx' ⊢; tauto))
      (fun y hy' => hy y (by simp only [List.mem_cons] at hy' ⊢; tauto)) (String.toList_injective h2)
    rw [String.toList_injective h1, ih]

theorem nameOf_inst {vs : List Var} {cs : List Const} (hn : vs.Nodup) (hl : vs.length = cs.length) {ns : List String}
    (hs : cs.map (·.name) = ns.map Name.str) : vs.map (nameOf (instSubst vs cs)) = ns := by
  have hg := instSubst_get? hn hl
  have hln : cs.length = ns.length := by simpa using congrArg List.length hs
  refine List.ext_getElem (by simp [hl, hln]) fun i h1 h2 => ?_
  simp only [List.length_map] at h1
  have e := (List.forall₂_iff_get.1 hg).2 i h1 (hl ▸ h1)
  have e2 : (cs[i]'(hl ▸ h1)).name = .str ns[i] := by
    have : (cs.map (·.name))[i]'(by simpa [← hl] using h1) = (ns.map Name.str)[i]'(by simpa using h2) := by simp only [hs]
    simpa using this
  simp only [List.get_eq_getElem] at e
  simp only [List.getElem_map, nameOf, e, e2]

theorem stringNames_list {cs : List Const} (h : StringNames cs) : ∃ ns : List String, cs.map (·.name) = ns.map Name.str := by
  induction cs with
  | nil => exact ⟨[], rfl⟩
  | cons c cs ih =>
    obtain ⟨n, e⟩ := h c (by simp)
    obtain ⟨ns, es⟩ := ih fun d hd => h d (by simp [hd])
    exact ⟨n :: ns, by simp [e, es]⟩

/-- The full statement of C66: different instances of the actions of a problem have different names. -/
def C66_full : Prop := ∀ (consts : Name → Option Const) (a1 a2 : PAction) (is1 is2 : List GItem) (cs1 cs2 : List Const) (o1 o2 : PlainOp),
  a1.params.Nodup → a2.params.Nodup → (a1.name = a2.name → a1 = a2) →
  groundPlainFrom consts a1 is1 = .ok o1 → groundPlainFrom consts a2 is2 = .ok o2 → Refers consts is1 cs1 → Refers consts is2 cs2 →
  o1.name = o2.name → a1.name = a2.name ∧ cs1.map (·.name) = cs2.map (·.name)

/-- C66, proved part: for action names without `(` and constants without commas. -/
theorem C66_names_partial (consts : Name → Option Const) (a1 a2 : PAction) (is1 is2 : List GItem) (cs1 cs2 : List Const)
    (o1 o2 : PlainOp) (n1 : a1.params.Nodup) (n2 : a2.params.Nodup) (hu : a1.name = a2.name → a1 = a2)
    (h1 : groundPlainFrom consts a1 is1 = .ok o1) (h2 : groundPlainFrom consts a2 is2 = .ok o2)
    (r1 : Refers consts is1 cs1) (r2 : Refers consts is2 cs2)
    (p1 : '(' ∉ a1.name.toList) (p2 : '(' ∉ a2.name.toList)
    (c1 : ∀ c ∈ cs1, ∀ n, c.name = .str n → ',' ∉ n.toList) (c2 : ∀ c ∈ cs2, ∀ n, c.name = .str n → ',' ∉ n.toList)
    (h : o1.name = o2.name) : a1.name = a2.name ∧ cs1.map (·.name) = cs2.map (·.name) := by
  have f1 := (C65_returns consts a1 n1 is1).1 ⟨o1, h1⟩
  have f2 := (C65_returns consts a2 n2 is2).1 ⟨o2, h2⟩
  obtain ⟨cs, q, l1, s1⟩ := f1
  have : cs = cs1 := by
    have := getItems_refers.2 q
    rw [getItems_refers.2 r1] at this
    simpa using this.symm
  subst this
  obtain ⟨cs', q, l2, s2⟩ := f2
  have : cs' = cs2 := by
    have := getItems_refers.2 q
    rw [getItems_refers.2 r2] at this
    simpa using this.symm
  subst this
  obtain ⟨ns1, e1⟩ := stringNames_list s1
  obtain ⟨ns2, e2⟩ := stringNames_list s2
  rw [groundPlainFrom_ok h1 r1, groundPlainFrom_ok h2 r2] at h
  simp only [instanceName, nameOf_inst n1 l1.symm e1, nameOf_inst n2 l2.symm e2] at h
  have h' := congrArg String.toList h
  simp only [String.toList_append] at h'
  have hp : ("(" : String).toList = ['('] := by decide
  rw [hp, List.append_assoc, List.append_assoc, List.append_assoc, List.append_assoc] at h'
  simp only [List.cons_append, List.nil_append] at h'
  obtain ⟨g1, g2⟩ := split_at_char p1 p2 h'
  have hname : a1.name = a2.name := String.toList_injective g1
  refine ⟨hname, ?_⟩
  have ha := hu hname
  subst ha
  have g3 := String.toList_injective (List.append_cancel_right g2)
  have hl : ns1.length = ns2.length := by
    have t1 := congrArg List.length e1
    have t2 := congrArg List.length e2
    simp only [List.length_map] at t1 t2
    omega
  have hm : ∀ (cs : List Const) (ns : List String), cs.map (·.name) = ns.map Name.str → (∀ c ∈ cs, ∀ n, c.name = .str n → ',' ∉ n.toList) →
      ∀ n ∈ ns, ',' ∉ n.toList := by
    intro cs ns e hc n hn
    have : Name.str n ∈ cs.map (·.name) := e ▸ List.mem_map_of_mem hn
    simp only [List.mem_map] at this
    obtain ⟨c, hc', e'⟩ := this
    exact hc c hc' n e'
  rw [e1, e2, joinNames_inj hl (hm _ _ e1 c1) (hm _ _ e2 c2) g3]

example : (∃ o, groundPlainFrom exMoveConsts exMove [.name "a", .name "b"] = .ok o) ∧ '(' ∉ exMove.name.toList ∧
    ',' ∉ ("a" : String).toList ∧ ',' ∉ ("b" : String).toList := ⟨⟨_, rfl⟩, by decide, by decide, by decide⟩

/-- C66 is false as stated: constants whose names contain `, `. -/
theorem C66_refuted : ¬ C66_full := by
  intro h
  have := (h (fun n => some ⟨n, "o"⟩) exMove exMove [.name "a, b", .name "c"] [.name "a", .name "b, c"]
    [⟨.str "a, b", "o"⟩, ⟨.str "c", "o"⟩] [⟨.str "a", "o"⟩, ⟨.str "b, c", "o"⟩] _ _ (by decide) (by decide) (fun _ => rfl) rfl rfl
    (.cons (.inr ⟨_, rfl, rfl⟩) (.cons (.inr ⟨_, rfl, rfl⟩) .nil)) (.cons (.inr ⟨_, rfl, rfl⟩) (.cons (.inr ⟨_, rfl, rfl⟩) .nil)) (by decide)).2
  revert this
  decide

end Tarski

import Verif.Prenex
import Verif.SubstLemmas
import Verif.Props.Constructors
import Mathlib.Tactic.Common
/-! Helper lemmas for C08. -/
namespace Tarski

def sat2 (c : Conn) (p q : Prop) : Prop :=
  match c with
  | .and => p ∧ q
  | .or => p ∨ q
  | .not => False

/-- `P` does not depend on the variables listed. -/
def Indep {D} (vs : List Term) (P : Asg D → Prop) : Prop :=
  ∀ v, Term.var v ∈ vs → ∀ σ d, P (σ.set v d) ↔ P σ

theorem qb_mix {D} (I : Interp D) (hI : NonemptySorts I) (q : Quant) (c : Conn) (P Q : Asg D → Prop)
    (vs : List Term) (hP : Indep vs P) (hc : c ≠ .not) :
    ∀ σ, quantBlock I q vs (fun τ => sat2 c (P τ) (Q τ)) σ ↔ sat2 c (P σ) (quantBlock I q vs Q σ) := by
  induction vs with
  | nil => intro σ; simp [quantBlock]
  | cons t vs ih =>
    intro σ
    have ih := ih (fun v hv => hP v (by simp [hv]))
    cases t with
    | const n s => simp only [quantBlock, ih]
    | app f ts => simp only [quantBlock, ih]
    | ite a b c => simp only [quantBlock, ih]
    | var v =>
      have hv := hP v (by simp)
      obtain ⟨d0, hd0⟩ := hI v.sort
      have ih' : ∀ d, quantBlock I q vs (fun τ => sat2 c (P τ) (Q τ)) (σ.set v d) ↔
          sat2 c (P σ) (quantBlock I q vs Q (σ.set v d)) := fun d => by rw [ih, iff_iff_eq]; congr 1; exact propext (hv σ d)
      clear ih
      cases q <;> simp only [quantBlock, ih'] <;> clear ih' <;> cases c <;> simp only [sat2]
      · constructor
        · rintro ⟨d, h1, h2, h3⟩; exact ⟨h2, d, h1, h3⟩
        · rintro ⟨h2, d, h1, h3⟩; exact ⟨d, h1, h2, h3⟩
      · constructor
        · rintro ⟨d, h1, h2 | h3⟩
          · exact Or.inl h2
          · exact Or.inr ⟨d, h1, h3⟩
        · rintro (h2 | ⟨d, h1, h3⟩)
          · exact ⟨d0, hd0, Or.inl h2⟩
          · exact ⟨d, h1, Or.inr h3⟩
      · exact absurd rfl hc
      · constructor
        · intro h; exact ⟨(h d0 hd0).1, fun d hd => (h d hd).2⟩
        · rintro ⟨h1, h2⟩ d hd; exact ⟨h1, h2 d hd⟩
      · constructor
        · intro h
          by_cases hp : P σ
          · exact Or.inl hp
          · exact Or.inr (fun d hd => (h d hd).resolve_left hp)
        · rintro (h | h) d hd
          · exact Or.inl h
          · exact Or.inr (h d hd)
      · exact absurd rfl hc

theorem sat2_comm {c p q} : sat2 c p q ↔ sat2 c q p := by
  cases c <;> simp [sat2, and_comm, or_comm]

theorem qb_mix_right {D} (I : Interp D) (hI : NonemptySorts I) (q : Quant) (c : Conn) (P Q : Asg D → Prop)
    (vs : List Term) (hQ : Indep vs Q) (hc : c ≠ .not) (σ) :
    quantBlock I q vs (fun τ => sat2 c (P τ) (Q τ)) σ ↔ sat2 c (quantBlock I q vs P σ) (Q σ) := by
  rw [sat2_comm, ← qb_mix I hI q c Q P vs hQ hc σ]
  exact quantBlock_congr I q vs (fun τ => sat2_comm) σ

theorem qb_append {D} (I : Interp D) (q : Quant) (vs ws : List Term) (P : Asg D → Prop) :
    ∀ σ, quantBlock I q (vs ++ ws) P σ ↔ quantBlock I q vs (quantBlock I q ws P) σ := by
  induction vs with
  | nil => intro σ; simp [quantBlock]
  | cons t vs ih =>
    intro σ
    cases t <;> cases q <;> simp only [List.cons_append, quantBlock, ih]

theorem indep_sat {D} (I : Interp D) (f : Formula) (vs : List Term)
    (h : ∀ v, Term.var v ∈ vs → ¬ FreeF v f) : Indep vs (Sat I f) := by
  intro v hv σ d
  apply sat_coinc
  intro w hw
  have : w ≠ v := by rintro rfl; exact h w hv hw
  simp [Asg.set, this]

theorem sat_comp2 {D} (I : Interp D) (k c) (a b : Formula) (hc : c ≠ .not) (σ : Asg D) :
    Sat I (.comp k c [a, b]) σ ↔ sat2 c (Sat I a σ) (Sat I b σ) := by
  cases c <;> simp [Sat, SatAll, SatAny, sat2] at *

theorem mergeVars_ok (acc ys : List Term) (hn : ys.Nodup) (hd : ∀ y ∈ ys, y ∉ acc) :
    mergeVars acc ys = .ok (acc ++ ys) := by
  induction ys generalizing acc with
  | nil => simp [mergeVars]
  | cons y ys ih =>
    rw [List.nodup_cons] at hn
    simp only [mergeVars]
    rw [if_neg (hd y (by simp)), ih _ hn.2]
    · simp
    · intro z hz
      simp only [List.mem_append, List.mem_singleton, not_or]
      exact ⟨hd z (by simp [hz]), by rintro rfl; exact hn.1 hz⟩

theorem dictKeys_nodup_aux (acc vs : List Term) (h : (acc ++ vs).Nodup) :
    vs.foldl (fun acc v => if v ∈ acc then acc else acc ++ [v]) acc = acc ++ vs := by
  induction vs generalizing acc with
  | nil => simp
  | cons v vs ih =>
    have hv : v ∉ acc := by
      intro hv
      rw [List.nodup_append] at h
      exact h.2.2 v hv v (by simp) rfl
    simp only [List.foldl_cons, if_neg hv]
    rw [ih] <;> simp [h]

theorem dictKeys_nodup (vs : List Term) (h : vs.Nodup) : dictKeys vs = vs := by
  have := dictKeys_nodup_aux [] vs (by simpa)
  simpa [dictKeys] using this

theorem nestVars_disjoint (outVs innerVs : List Term) (h : ∀ y ∈ outVs, y ∉ innerVs) :
    nestVars outVs innerVs = (outVs, []) := by
  simp only [nestVars, Prod.mk.injEq]
  constructor
  · conv_rhs => rw [← List.map_id outVs]
    exact List.map_congr_left (fun y hy => by simp [h y hy])
  · rw [List.filterMap_eq_nil_iff]
    intro y hy; simp [h y hy]

theorem free_comp2 {v k c a b} : FreeF v (.comp k c [a, b]) ↔ FreeF v a ∨ FreeF v b := by
  simp [FreeF, FreeFs]
theorem bound_comp2 {v k c a b} : BoundF v (.comp k c [a, b]) ↔ BoundF v a ∨ BoundF v b := by
  simp [BoundF, BoundFs]

/-- Leading quantifier of a formula as it stands. -/
def headQ : Formula → Option Quant
  | .quant q _ _ => some q
  | _ => none

structure PxGood (f g : Formula) : Prop where
  equiv : ∀ (D : Type) (I : Interp D), NonemptySorts I → ∀ σ, Sat I g σ ↔ Sat I f σ
  free : ∀ v, FreeF v g → FreeF v f
  bound : ∀ v, BoundF v g → BoundF v f
  norebind : NoRebind g
  vars : ∀ q vs h, g = .quant q vs h → ∀ t ∈ vs, ∃ v, t = Term.var v
  head : headQ g = prefixOf f

theorem nb2 {k c a b} : NoRebind (.comp k c [a, b]) ↔ NoRebind a ∧ NoRebind b := by
  simp [NoRebind, NoRebinds]

theorem headQ_none_of {g : Formula} (h : ∀ q vs f, g ≠ .quant q vs f) : headQ g = none := by
  cases g with
  | quant q vs f => exact absurd rfl (h q vs f)
  | _ => rfl

theorem prefixOf_comp {k c a b} (hc : c ≠ .not) :
    prefixOf (.comp k c [a, b]) = prefixOf.mergePrefix (prefixOf a) (prefixOf b) := by
  cases c
  · simp [prefixOf]
  · simp [prefixOf]
  · exact absurd rfl hc

theorem combine_good {k c a b lhs rhs} (hc : c ≠ .not) (ga : PxGood a lhs) (gb : PxGood b rhs)
    (h1 : ∀ v, BoundF v a → ¬ FreeF v b ∧ ¬ BoundF v b) (h2 : ∀ v, BoundF v b → ¬ FreeF v a)
    (h3 : c = .and → prefixOf a = prefixOf b → prefixOf a = none)
    (hraw : headQ lhs = none → headQ rhs = none → lhs = a ∧ rhs = b) :
    ∃ g, combine (.comp k c [a, b]) c lhs rhs = .ok g ∧ PxGood (.comp k c [a, b]) g ∧
      (headQ g = none → g = .comp k c [a, b]) := by
  have hbase : ∀ (D : Type) (I : Interp D), NonemptySorts I → ∀ σ,
      Sat I (.comp k c [a, b]) σ ↔ sat2 c (Sat I lhs σ) (Sat I rhs σ) := by
    intro D I hI σ
    rw [sat_comp2 I k c a b hc]
    cases c <;> simp only [sat2, ga.equiv D I hI σ, gb.equiv D I hI σ]
  by_cases hl : ∃ ql lvs lf, lhs = .quant ql lvs lf
  · obtain ⟨ql, lvs, lf, rfl⟩ := hl
    have hlv := ga.vars _ _ _ rfl
    have hlb : ∀ v, Term.var v ∈ lvs → BoundF v a := fun v hv => ga.bound v (Or.inl hv)
    by_cases hr : ∃ qr rvs rf, rhs = .quant qr rvs rf
    · obtain ⟨qr, rvs, rf, rfl⟩ := hr
      have hrv := gb.vars _ _ _ rfl
      have hrb : ∀ v, Term.var v ∈ rvs → BoundF v b := fun v hv => gb.bound v (Or.inl hv)
      have hdis : ∀ y ∈ rvs, y ∉ lvs := by
        intro y hy hy'
        obtain ⟨v, rfl⟩ := hrv y hy
        exact (h1 v (hlb v hy')).2 (hrb v hy)
      have hdis' : ∀ y ∈ lvs, y ∉ rvs := fun y hy hy' => hdis y hy' hy
      -- a bound variable of one side is not free in the matrix of the other
      have hfl : ∀ v, Term.var v ∈ rvs → ¬ FreeF v lf := by
        intro v hv hf
        by_cases hv' : Term.var v ∈ lvs
        · exact hdis _ hv hv'
        · exact h2 v (hrb v hv) (ga.free v ⟨hf, hv'⟩)
      have hfr : ∀ v, Term.var v ∈ lvs → ¬ FreeF v rf := by
        intro v hv hf
        by_cases hv' : Term.var v ∈ rvs
        · exact hdis _ hv' hv
        · exact (h1 v (hlb v hv)).1 (gb.free v ⟨hf, hv'⟩)
      have hbl : ∀ v, Term.var v ∈ rvs → ¬ BoundF v lf := by
        intro v hv hf
        exact (h1 v (ga.bound v (Or.inr hf))).2 (hrb v hv)
      have hbr : ∀ v, Term.var v ∈ lvs → ¬ BoundF v rf := by
        intro v hv hf
        exact (h1 v (hlb v hv)).2 (gb.bound v (Or.inr hf))
      by_cases hq : ql = qr
      · subst hq
        have hor : c = .or := by
          cases c with
          | or => rfl
          | not => exact absurd rfl hc
          | and =>
            have hp := ga.head.symm.trans gb.head
            have := h3 rfl hp
            rw [← ga.head] at this
            simp [headQ] at this
        subst hor
        refine ⟨.quant ql (lvs ++ rvs) (lor [lf, rf]), ?_, ?_, by simp [headQ]⟩
        · simp only [combine, if_true, mergeQuantified]
          rw [dictKeys_nodup lvs ga.norebind.1, mergeVars_ok lvs rvs gb.norebind.1 hdis]
        · have hlor : lor [lf, rf] = .comp .tuple .or [lf, rf] := by
            simp [lor, createCompound, toBinaryTree]
          refine ⟨?_, ?_, ?_, ?_, ?_, ?_⟩
          · intro D I hI σ
            rw [hbase D I hI σ]
            simp only [Sat]
            rw [qb_append]
            have e1 : ∀ τ, quantBlock I ql rvs (Sat I (lor [lf, rf])) τ ↔
                sat2 .or (Sat I lf τ) (quantBlock I ql rvs (Sat I rf) τ) := by
              intro τ
              rw [← qb_mix I hI ql .or (Sat I lf) (Sat I rf) rvs (indep_sat I lf rvs hfl) (by simp) τ]
              apply quantBlock_congr
              intro ρ
              rw [hlor, sat_comp2 I _ _ _ _ (by simp)]
            rw [quantBlock_congr I ql lvs e1 σ]
            apply qb_mix_right I hI ql .or _ _ lvs _ (by simp) σ
            intro v hv τ d
            have := indep_sat I (.quant ql rvs rf) lvs (by
              intro v hv hf; exact hfr v hv hf.1) v hv τ d
            simpa only [Sat] using this
          · intro v hv
            rw [hlor] at hv
            obtain ⟨hv1, hv2⟩ := hv
            rw [free_comp2] at hv1 ⊢
            simp only [List.mem_append, not_or] at hv2
            rcases hv1 with hv1 | hv1
            · exact Or.inl (ga.free v ⟨hv1, hv2.1⟩)
            · exact Or.inr (gb.free v ⟨hv1, hv2.2⟩)
          · intro v hv
            rw [hlor] at hv
            rw [bound_comp2]
            rcases hv with hv | hv
            · rcases List.mem_append.mp hv with hv | hv
              · exact Or.inl (hlb v hv)
              · exact Or.inr (hrb v hv)
            · rw [bound_comp2] at hv
              rcases hv with hv | hv
              · exact Or.inl (ga.bound v (Or.inr hv))
              · exact Or.inr (gb.bound v (Or.inr hv))
          · refine ⟨?_, ?_, ?_⟩
            · rw [List.nodup_append]
              exact ⟨ga.norebind.1, gb.norebind.1, fun x hx y hy he => hdis' x hx (he ▸ hy)⟩
            · intro v hv
              rw [hlor, bound_comp2, not_or]
              rcases List.mem_append.mp hv with hv | hv
              · exact ⟨ga.norebind.2.1 v hv, hbr v hv⟩
              · exact ⟨hbl v hv, gb.norebind.2.1 v hv⟩
            · rw [hlor, nb2]; exact ⟨ga.norebind.2.2, gb.norebind.2.2⟩
          · intro q vs h he t ht
            cases he
            rcases List.mem_append.mp ht with ht | ht
            · exact hlv t ht
            · exact hrv t ht
          · rw [prefixOf_comp (by simp), ← ga.head, ← gb.head]
            cases ql <;> rfl
      · -- different quantifiers
        have hcase : (ql = .forall ∧ qr = .exists) ∨ (ql = .exists ∧ qr = .forall) := by
          cases ql <;> cases qr <;> simp at hq ⊢
        rcases hcase with ⟨rfl, rfl⟩ | ⟨rfl, rfl⟩
        · refine ⟨.quant .exists rvs (.quant .forall lvs (.comp .tuple c [lf, rf])), ?_, ?_, by simp [headQ]⟩
          · simp [combine, nestVars_disjoint rvs lvs hdis, nestSub]
          · refine ⟨?_, ?_, ?_, ?_, ?_, ?_⟩
            · intro D I hI σ
              rw [hbase D I hI σ]
              simp only [Sat]
              have e1 : ∀ τ, quantBlock I .forall lvs (Sat I (.comp .tuple c [lf, rf])) τ ↔
                  sat2 c (quantBlock I .forall lvs (Sat I lf) τ) (Sat I rf τ) := by
                intro τ
                rw [← qb_mix_right I hI .forall c (Sat I lf) (Sat I rf) lvs (indep_sat I rf lvs hfr) hc τ]
                apply quantBlock_congr
                intro ρ
                exact sat_comp2 I _ _ _ _ hc ρ
              rw [quantBlock_congr I .exists rvs e1 σ]
              apply qb_mix I hI .exists c _ _ rvs _ hc σ
              intro v hv τ d
              have := indep_sat I (.quant .forall lvs lf) rvs (by
                intro v hv hf; exact hfl v hv hf.1) v hv τ d
              simpa only [Sat] using this
            · intro v hv
              obtain ⟨⟨hv1, hv2⟩, hv3⟩ := hv
              rw [free_comp2] at hv1 ⊢
              rcases hv1 with hv1 | hv1
              · exact Or.inl (ga.free v ⟨hv1, hv2⟩)
              · exact Or.inr (gb.free v ⟨hv1, hv3⟩)
            · intro v hv
              rw [bound_comp2]
              rcases hv with hv | hv | hv
              · exact Or.inr (hrb v hv)
              · exact Or.inl (hlb v hv)
              · rw [bound_comp2] at hv
                rcases hv with hv | hv
                · exact Or.inl (ga.bound v (Or.inr hv))
                · exact Or.inr (gb.bound v (Or.inr hv))
            · refine ⟨gb.norebind.1, ?_, ga.norebind.1, ?_, ?_⟩
              · intro v hv hb
                rcases hb with hb | hb
                · exact hdis _ hv hb
                · rw [bound_comp2] at hb
                  rcases hb with hb | hb
                  · exact hbl v hv hb
                  · exact gb.norebind.2.1 v hv hb
              · intro v hv hb
                rw [bound_comp2] at hb
                rcases hb with hb | hb
                · exact ga.norebind.2.1 v hv hb
                · exact hbr v hv hb
              · rw [nb2]; exact ⟨ga.norebind.2.2, gb.norebind.2.2⟩
            · intro q vs h he t ht
              cases he; exact hrv t ht
            · rw [prefixOf_comp hc, ← ga.head, ← gb.head]; rfl
        · refine ⟨.quant .exists lvs (.quant .forall rvs (.comp .tuple c [lf, rf])), ?_, ?_, by simp [headQ]⟩
          · simp [combine, nestVars_disjoint lvs rvs hdis', nestSub]
          · refine ⟨?_, ?_, ?_, ?_, ?_, ?_⟩
            · intro D I hI σ
              rw [hbase D I hI σ]
              simp only [Sat]
              have e1 : ∀ τ, quantBlock I .forall rvs (Sat I (.comp .tuple c [lf, rf])) τ ↔
                  sat2 c (Sat I lf τ) (quantBlock I .forall rvs (Sat I rf) τ) := by
                intro τ
                rw [← qb_mix I hI .forall c (Sat I lf) (Sat I rf) rvs (indep_sat I lf rvs hfl) hc τ]
                apply quantBlock_congr
                intro ρ
                exact sat_comp2 I _ _ _ _ hc ρ
              rw [quantBlock_congr I .exists lvs e1 σ]
              apply qb_mix_right I hI .exists c _ _ lvs _ hc σ
              intro v hv τ d
              have := indep_sat I (.quant .forall rvs rf) lvs (by
                intro v hv hf; exact hfr v hv hf.1) v hv τ d
              simpa only [Sat] using this
            · intro v hv
              obtain ⟨⟨hv1, hv2⟩, hv3⟩ := hv
              rw [free_comp2] at hv1 ⊢
              rcases hv1 with hv1 | hv1
              · exact Or.inl (ga.free v ⟨hv1, hv3⟩)
              · exact Or.inr (gb.free v ⟨hv1, hv2⟩)
            · intro v hv
              rw [bound_comp2]
              rcases hv with hv | hv | hv
              · exact Or.inl (hlb v hv)
              · exact Or.inr (hrb v hv)
              · rw [bound_comp2] at hv
                rcases hv with hv | hv
                · exact Or.inl (ga.bound v (Or.inr hv))
                · exact Or.inr (gb.bound v (Or.inr hv))
            · refine ⟨ga.norebind.1, ?_, gb.norebind.1, ?_, ?_⟩
              · intro v hv hb
                rcases hb with hb | hb
                · exact hdis' _ hv hb
                · rw [bound_comp2] at hb
                  rcases hb with hb | hb
                  · exact ga.norebind.2.1 v hv hb
                  · exact hbr v hv hb
              · intro v hv hb
                rw [bound_comp2] at hb
                rcases hb with hb | hb
                · exact hbl v hv hb
                · exact gb.norebind.2.1 v hv hb
              · rw [nb2]; exact ⟨ga.norebind.2.2, gb.norebind.2.2⟩
            · intro q vs h he t ht
              cases he; exact hlv t ht
            · rw [prefixOf_comp hc, ← ga.head, ← gb.head]; rfl
    · have hr' : ∀ q vs f, rhs ≠ .quant q vs f := fun q vs f he => hr ⟨q, vs, f, he⟩
      have hrh : headQ rhs = none := headQ_none_of hr'
      refine ⟨.quant ql lvs (.comp .tuple c [lf, rhs]), ?_, ?_, by simp [headQ]⟩
      · cases rhs with
        | quant q vs f => exact absurd rfl (hr' q vs f)
        | _ => simp [combine]
      · have hfr : ∀ v, Term.var v ∈ lvs → ¬ FreeF v rhs := fun v hv hf => (h1 v (hlb v hv)).1 (gb.free v hf)
        refine ⟨?_, ?_, ?_, ?_, ?_, ?_⟩
        · intro D I hI σ
          rw [hbase D I hI σ]
          simp only [Sat]
          rw [← qb_mix_right I hI ql c (Sat I lf) (Sat I rhs) lvs (indep_sat I rhs lvs hfr) hc σ]
          exact quantBlock_congr I ql lvs (fun ρ => sat_comp2 I _ _ _ _ hc ρ) σ
        · rintro v ⟨hv1, hv2⟩
          rw [free_comp2] at hv1 ⊢
          rcases hv1 with hv1 | hv1
          · exact Or.inl (ga.free v ⟨hv1, hv2⟩)
          · exact Or.inr (gb.free v hv1)
        · intro v hv
          rw [bound_comp2]
          rcases hv with hv | hv
          · exact Or.inl (hlb v hv)
          · rw [bound_comp2] at hv
            rcases hv with hv | hv
            · exact Or.inl (ga.bound v (Or.inr hv))
            · exact Or.inr (gb.bound v hv)
        · refine ⟨ga.norebind.1, ?_, ?_⟩
          · intro v hv hb
            rw [bound_comp2] at hb
            rcases hb with hb | hb
            · exact ga.norebind.2.1 v hv hb
            · exact (h1 v (hlb v hv)).2 (gb.bound v hb)
          · rw [nb2]; exact ⟨ga.norebind.2.2, gb.norebind⟩
        · intro q vs h he t ht
          cases he; exact hlv t ht
        · rw [prefixOf_comp hc, ← ga.head, ← gb.head, hrh]; rfl
  · have hl' : ∀ q vs f, lhs ≠ .quant q vs f := fun q vs f he => hl ⟨q, vs, f, he⟩
    have hlh : headQ lhs = none := headQ_none_of hl'
    by_cases hr : ∃ qr rvs rf, rhs = .quant qr rvs rf
    · obtain ⟨qr, rvs, rf, rfl⟩ := hr
      have hrv := gb.vars _ _ _ rfl
      have hrb : ∀ v, Term.var v ∈ rvs → BoundF v b := fun v hv => gb.bound v (Or.inl hv)
      refine ⟨.quant qr rvs (.comp .tuple c [lhs, rf]), ?_, ?_, by simp [headQ]⟩
      · cases lhs with
        | quant q vs f => exact absurd rfl (hl' q vs f)
        | _ => simp [combine]
      · have hfl : ∀ v, Term.var v ∈ rvs → ¬ FreeF v lhs := fun v hv hf => h2 v (hrb v hv) (ga.free v hf)
        refine ⟨?_, ?_, ?_, ?_, ?_, ?_⟩
        · intro D I hI σ
          rw [hbase D I hI σ]
          simp only [Sat]
          rw [← qb_mix I hI qr c (Sat I lhs) (Sat I rf) rvs (indep_sat I lhs rvs hfl) hc σ]
          exact quantBlock_congr I qr rvs (fun ρ => sat_comp2 I _ _ _ _ hc ρ) σ
        · rintro v ⟨hv1, hv2⟩
          rw [free_comp2] at hv1 ⊢
          rcases hv1 with hv1 | hv1
          · exact Or.inl (ga.free v hv1)
          · exact Or.inr (gb.free v ⟨hv1, hv2⟩)
        · intro v hv
          rw [bound_comp2]
          rcases hv with hv | hv
          · exact Or.inr (hrb v hv)
          · rw [bound_comp2] at hv
            rcases hv with hv | hv
            · exact Or.inl (ga.bound v hv)
            · exact Or.inr (gb.bound v (Or.inr hv))
        · refine ⟨gb.norebind.1, ?_, ?_⟩
          · intro v hv hb
            rw [bound_comp2] at hb
            rcases hb with hb | hb
            · exact (h1 v (ga.bound v hb)).2 (hrb v hv)
            · exact gb.norebind.2.1 v hv hb
          · rw [nb2]; exact ⟨ga.norebind, gb.norebind.2.2⟩
        · intro q vs h he t ht
          cases he; exact hrv t ht
        · rw [prefixOf_comp hc, ← ga.head, ← gb.head, hlh]; rfl
    · have hr' : ∀ q vs f, rhs ≠ .quant q vs f := fun q vs f he => hr ⟨q, vs, f, he⟩
      have hrh : headQ rhs = none := headQ_none_of hr'
      obtain ⟨rfl, rfl⟩ := hraw hlh hrh
      refine ⟨.comp k c [lhs, rhs], ?_, ?_, by simp⟩
      · cases lhs with
        | quant q vs f => exact absurd rfl (hl' q vs f)
        | _ =>
          cases rhs with
          | quant q vs f => exact absurd rfl (hr' q vs f)
          | _ => simp [combine]
      · refine ⟨fun _ _ _ _ => Iff.rfl, fun _ => id, fun _ => id, by rw [nb2]; exact ⟨ga.norebind, gb.norebind⟩, by simp, ?_⟩
        rw [prefixOf_comp hc, ← ga.head, ← gb.head, hlh, hrh]; rfl

theorem px_safe {f : Formula} (hf : PrenexSafe f) : ∀ n, psize f ≤ n →
    ∃ g, pxFuel n f = .ok g ∧ PxGood f g ∧ (headQ g = none → g = f) := by
  induction hf with
  | top =>
    intro n hn; simp only [psize] at hn
    obtain ⟨m, rfl⟩ : ∃ m, n = m + 1 := ⟨n - 1, by omega⟩
    exact ⟨.top, by simp [pxFuel], ⟨fun _ _ _ _ => Iff.rfl, fun _ => id, fun _ => id, trivial, by simp, rfl⟩, fun _ => rfl⟩
  | bot =>
    intro n hn; simp only [psize] at hn
    obtain ⟨m, rfl⟩ : ∃ m, n = m + 1 := ⟨n - 1, by omega⟩
    exact ⟨.bot, by simp [pxFuel], ⟨fun _ _ _ _ => Iff.rfl, fun _ => id, fun _ => id, trivial, by simp, rfl⟩, fun _ => rfl⟩
  | atom p ts =>
    intro n hn; simp only [psize] at hn
    obtain ⟨m, rfl⟩ : ∃ m, n = m + 1 := ⟨n - 1, by omega⟩
    exact ⟨.atom p ts, by simp [pxFuel], ⟨fun _ _ _ _ => Iff.rfl, fun _ => id, fun _ => id, trivial, by simp, rfl⟩, fun _ => rfl⟩
  | negAtom k p ts =>
    intro n hn; simp only [psize] at hn
    obtain ⟨m, rfl⟩ : ∃ m, n = m + 1 := ⟨n - 1, by omega⟩
    exact ⟨.comp k .not [.atom p ts], by simp [pxFuel], ⟨fun _ _ _ _ => Iff.rfl, fun _ => id, fun _ => id,
      by simp [NoRebind, NoRebinds], by simp, rfl⟩, fun _ => rfl⟩
  | binary k c a b hc _ _ h1 h2 h3 iha ihb =>
    intro n hn; simp only [psize, psizes] at hn
    obtain ⟨m, rfl⟩ : ∃ m, n = m + 1 := ⟨n - 1, by omega⟩
    obtain ⟨lhs, e1, ga, ra⟩ := iha m (by omega)
    obtain ⟨rhs, e2, gb, rb⟩ := ihb m (by omega)
    obtain ⟨g, e3, gg, rg⟩ := combine_good (k := k) hc ga gb h1 h2 h3 (fun h h' => ⟨ra h, rb h'⟩)
    refine ⟨g, ?_, gg, rg⟩
    cases c
    · simp only [pxFuel, e1, e2, e3]
    · simp only [pxFuel, e1, e2, e3]
    · exact absurd rfl hc
  | quant q vs f _ hn hv hb hq ih =>
    intro n hs; simp only [psize] at hs
    obtain ⟨m, rfl⟩ : ∃ m, n = m + 1 := ⟨n - 1, by omega⟩
    obtain ⟨g, e1, gg, rg⟩ := ih m (by omega)
    simp only [pxFuel, e1]
    by_cases hg : ∃ q' ws h, g = .quant q' ws h
    · obtain ⟨q', ws, h, rfl⟩ := hg
      by_cases hqq : q' = q
      · subst hqq
        refine ⟨.quant q' (vs ++ ws) h, by simp [absorbQ], ⟨?_, ?_, ?_, ?_, ?_, rfl⟩, by simp [headQ]⟩
        · intro D I hI σ
          simp only [Sat]
          rw [qb_append]
          exact quantBlock_congr I q' vs (fun τ => by
            have := gg.equiv D I hI τ; simpa only [Sat] using this) σ
        · rintro v ⟨h1, h2⟩
          simp only [List.mem_append, not_or] at h2
          exact ⟨gg.free v ⟨h1, h2.2⟩, h2.1⟩
        · rintro v (hv | hv)
          · rcases List.mem_append.mp hv with hv | hv
            · exact Or.inl hv
            · exact Or.inr (gg.bound v (Or.inl hv))
          · exact Or.inr (gg.bound v (Or.inr hv))
        · refine ⟨?_, ?_, gg.norebind.2.2⟩
          · rw [List.nodup_append]
            refine ⟨hn, gg.norebind.1, ?_⟩
            rintro x hx y hy rfl
            obtain ⟨v, rfl⟩ := hv x hx
            exact hb v hx (gg.bound v (Or.inl hy))
          · intro v hv
            rcases List.mem_append.mp hv with hv | hv
            · exact fun hbd => hb v hv (gg.bound v (Or.inr hbd))
            · exact gg.norebind.2.1 v hv
        · intro q vs' h' he t ht
          cases he
          rcases List.mem_append.mp ht with ht | ht
          · exact hv t ht
          · exact gg.vars _ _ _ rfl t ht
      · have hqe : q' ≠ .exists := by
          rintro rfl
          have hqf : q = .forall := by cases q <;> simp at hqq ⊢
          exact hq hqf gg.head.symm
        refine ⟨.quant q vs (.quant q' ws h), by simp [absorbQ, hqq, hqe], ⟨?_, ?_, ?_, ?_, ?_, rfl⟩, by simp [headQ]⟩
        · intro D I hI σ
          simp only [Sat]
          exact quantBlock_congr I q vs (fun τ => by
            have := gg.equiv D I hI τ; simpa only [Sat] using this) σ
        · rintro v ⟨h1, h2⟩; exact ⟨gg.free v h1, h2⟩
        · rintro v (hv | hv)
          · exact Or.inl hv
          · exact Or.inr (gg.bound v hv)
        · exact ⟨hn, fun v hv hbd => hb v hv (gg.bound v hbd), gg.norebind⟩
        · intro q vs' h' he t ht; cases he; exact hv t ht
    · have hg' : ∀ q vs f, g ≠ .quant q vs f := fun q vs f he => hg ⟨q, vs, f, he⟩
      refine ⟨.quant q vs g, ?_, ⟨?_, ?_, ?_, ?_, ?_, rfl⟩, by simp [headQ]⟩
      · cases g with
        | quant q vs f => exact absurd rfl (hg' q vs f)
        | _ => simp [absorbQ]
      · intro D I hI σ
        simp only [Sat]
        exact quantBlock_congr I q vs (fun τ => gg.equiv D I hI τ) σ
      · rintro v ⟨h1, h2⟩; exact ⟨gg.free v h1, h2⟩
      · rintro v (hv | hv)
        · exact Or.inl hv
        · exact Or.inr (gg.bound v hv)
      · exact ⟨hn, fun v hv hbd => hb v hv (gg.bound v hbd), gg.norebind⟩
      · intro q vs' h' he t ht; cases he; exact hv t ht

mutual
theorem subF_psize (s : Subst) (f : Formula) : psize (subF s f) = psize f := by
  match f with
  | .top => rfl
  | .bot => rfl
  | .atom _ _ => simp [subF, psize]
  | .comp k c fs => simp only [subF, psize]; rw [subFs_psizes s fs]
  | .quant q vs f => simp only [subF, psize]; rw [subF_psize s f]
theorem subFs_psizes (s : Subst) (fs : List Formula) : psizes (subFs s fs) = psizes fs := by
  match fs with
  | [] => rfl
  | f :: fs => simp only [subFs, psizes]; rw [subF_psize s f, subFs_psizes s fs]
end

theorem nestSub_psize (s : Subst) (f : Formula) : psize (nestSub s f) = psize f := by
  unfold nestSub; split
  · rfl
  · exact subF_psize s f

theorem psize_pos (f : Formula) : 1 ≤ psize f := by cases f <;> simp [psize]

theorem combine_psize {phi c lhs rhs g} (h : combine phi c lhs rhs = .ok g)
    (hp : psize lhs + psize rhs < psize phi) : psize g ≤ psize phi := by
  unfold combine at h
  split at h
  · split at h
    · simp only [mergeQuantified] at h
      split at h
      · cases h
      · cases h
        simp only [lor, createCompound, toBinaryTree, psize, psizes, List.isEmpty_cons, Bool.false_eq_true, if_false] at hp ⊢
        omega
    · split at h
      · cases h; simp only [psize, psizes, nestSub_psize] at hp ⊢; omega
      · cases h; simp only [psize, psizes, nestSub_psize] at hp ⊢; omega
  · cases h; simp only [psize, psizes] at hp ⊢; omega
  · cases h; simp only [psize, psizes] at hp ⊢; omega
  · cases h; exact Nat.le_refl _

theorem pxFuel_psize (n : Nat) : ∀ f g, pxFuel n f = .ok g → psize g ≤ psize f := by
  induction n with
  | zero => intro f g h; simp [pxFuel] at h
  | succ n ih =>
    intro f g h
    unfold pxFuel at h
    split at h
    · split at h <;> cases h
      exact Nat.le_refl _
    · rename_i k c fs _
      split at h
      · rename_i a b rest
        split at h
        · cases h
        · rename_i lhs e1
          split at h
          · cases h
          · rename_i rhs e2
            have h1 := ih _ _ e1
            have h2 := ih _ _ e2
            exact combine_psize h (by simp only [psize, psizes]; omega)
      · cases h
    · rename_i q vs body
      split at h
      · cases h
      · rename_i g' e1
        have h1 := ih _ _ e1
        unfold absorbQ at h
        split at h
        · split at h
          · cases h; simp only [psize] at h1 ⊢; omega
          · split at h
            · split at h
              · cases h
              · rename_i e2
                have h2 := ih _ _ e2
                cases h; simp only [psize] at h1 h2 ⊢; omega
            · cases h; simp only [psize] at h1 ⊢; omega
        · cases h; simp only [psize] at h1 ⊢; omega
    · cases h; exact Nat.le_refl _

theorem pxFuel_succ (n : Nat) : ∀ f, psize f ≤ n → pxFuel (n + 1) f = pxFuel n f := by
  induction n with
  | zero => intro f h; have := psize_pos f; omega
  | succ n ih =>
    intro f hf
    rw [pxFuel.eq_def (n + 1 + 1), pxFuel.eq_def (n + 1)]
    simp only
    split
    · rfl
    · split
      · rename_i a b rest
        simp only [psize, psizes] at hf
        rw [ih a (by omega), ih b (by omega)]
      · rfl
    · rename_i q vs body
      simp only [psize] at hf
      rw [ih body (by omega)]
      cases e : pxFuel n body with
      | error e' => rfl
      | ok g =>
        have := pxFuel_psize n _ _ e
        simp only [absorbQ]
        split
        · rename_i q' ws h
          simp only [psize] at this
          rw [ih (.quant q vs h) (by simp only [psize]; omega)]
        · rfl
    · rfl

/-- The python recursion terminates: unrolling it `psize f` times is enough, more does not change the
result. -/
theorem pxFuel_enough (f : Formula) (n : Nat) (h : psize f ≤ n) : pxFuel n f = pxFuel (psize f) f := by
  induction n with
  | zero => have := psize_pos f; omega
  | succ n ih =>
    by_cases hn : psize f = n + 1
    · rw [hn]
    · rw [pxFuel_succ n f (by omega), ih (by omega)]

end Tarski

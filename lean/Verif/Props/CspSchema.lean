import Mathlib.Tactic.Common
import Mathlib.Order.Basic
import Mathlib.Data.List.Forall2
import Verif.CspSchema
import Verif.SubstLemmas
/-! C67: the solutions of the constraint satisfaction problem of an action schema are its applicable instances. -/
namespace Tarski

/-! ### Specification -/

/-- The meaning of a constraint in a state `I` whose objects are their ids, under values `α` of the CSP variables. Tables and
relations of functional terms, or with a variable `None`, have no meaning. -/
def CspCon.Holds (I : Interp Int) (α : String → Int) : CspCon → Prop
  | .table p vs neg => ∃ ns : List String, vs = ns.map some ∧ (I.pred (.user p) (ns.map α) ↔ neg = false)
  | .tableFn _ _ => False
  | .stateVar p ts v => I.pred p (evalTs I ts (fun _ => 0)) ↔ v = true
  | .rel c l r => ∃ a b, l = some a ∧ r = some b ∧ cmpRel (· < ·) c (α a) (α b)
  | .relFn _ _ _ => False

/-- A solution of the CSP: values within the (inclusive) bounds that satisfy all constraints. -/
structure Csp.Solution (I : Interp Int) (csp : Csp) (α : String → Int) : Prop where
  bounds : ∀ v ∈ csp.vars, v.lb ≤ α v.name ∧ α v.name ≤ v.ub
  cons : ∀ c ∈ csp.cons, c.Holds I α

/-- The objects of the state are their ids: constants denote theirs, sorts contain those between their bounds, and comparisons
are those of the ids. -/
structure CspEnv.Matches (E : CspEnv) (I : Interp Int) : Prop where
  const : ∀ n s i, E.ids n s = some i → I.const n s = i
  sort : ∀ s lb ub, E.bounds s = some (lb, ub) → ∀ d, I.sort s d ↔ lb ≤ d ∧ d < ub
  cmp : StdCmp I (· < ·)

/-- A variable or a constant. -/
def IsLeaf (t : Term) : Prop := (∃ v, t = .var v) ∨ ∃ n s, t = .const n s

mutual
/-- A conjunction of atoms and negated atoms, whose arguments are variables and constants; comparisons have two. -/
def FlatConj : Formula → Prop
  | .top => True
  | .atom p ts => (∀ t ∈ ts, IsLeaf t) ∧ ∀ c, p = .cmp c → ts.length = 2
  | .comp _ .not fs => ∃ p ts, fs = [.atom p ts] ∧ (∀ t ∈ ts, IsLeaf t) ∧ ∀ c, p = .cmp c → ts.length = 2
  | .comp _ .and fs => FlatConjs fs
  | _ => False
def FlatConjs : List Formula → Prop
  | [] => True
  | f :: fs => FlatConj f ∧ FlatConjs fs
end

mutual
/-- The term is an argument of an atom of the formula. -/
def ArgF (t : Term) : Formula → Prop
  | .top => False
  | .bot => False
  | .atom _ ts => t ∈ ts
  | .comp _ _ fs => ArgFs t fs
  | .quant _ _ f => ArgF t f
def ArgFs (t : Term) : List Formula → Prop
  | [] => False
  | f :: fs => ArgF t f ∨ ArgFs t fs
end

/-- How a variable or constant is printed. -/
def leafText : Term → String
  | .var v => v.sym
  | .const n _ => n.render
  | _ => ""

/-- The parameters, and the variables and constants of the precondition. -/
def LeafOf (params : List Var) (pre : Formula) (t : Term) : Prop := (∃ v ∈ params, t = .var v) ∨ ArgF t pre

/-- Different variables and constants are printed differently. -/
def NoClash (params : List Var) (pre : Formula) : Prop :=
  ∀ t u, LeafOf params pre t → LeafOf params pre u → leafText t = leafText u → t = u

/-- The full statement of C67. -/
def C67_full : Prop := ∀ (E : CspEnv) (I : Interp Int) (params : List Var) (pre : Formula) (csp : Csp), E.Matches I →
  (∀ v, ArgF (.var v) pre → v ∈ params) → cspSchema E params pre = .ok csp →
  ∀ σ : Asg Int, ((∀ v ∈ params, I.sort v.sort (σ v)) ∧ Sat I pre σ) ↔
    ∃ α, csp.Solution I α ∧ ∀ v ∈ params, α v.sym = σ v

/-! ### Lemmas -/

/-- The entry is the one of the variable or constant. -/
def EntryOf (E : CspEnv) (x : CspVar) : Term → Prop
  | .var v => x.name = v.sym ∧ E.bounds v.sort = some (x.lb, x.ub + 1)
  | .const n s => x.name = n.render ∧ E.ids n s = some x.lb ∧ x.ub = x.lb
  | _ => False

/-- `c'` extends `c` with entries for the terms `V`. -/
structure Extends (E : CspEnv) (V : Term → Prop) (c c' : Csp) : Prop where
  old : ∀ x ∈ c.vars, x ∈ c'.vars
  new : ∀ x ∈ c'.vars, x ∈ c.vars ∨ ∃ t, V t ∧ EntryOf E x t
  all : ∀ t, V t → ∃ x ∈ c'.vars, x.name = leafText t

theorem Extends.refl (E : CspEnv) (c : Csp) : Extends E (fun _ => False) c c := ⟨fun _ h => h, fun _ h => .inl h, fun _ h => h.elim⟩

theorem Extends.trans {E : CspEnv} {V W : Term → Prop} {c1 c2 c3 : Csp} (h1 : Extends E V c1 c2) (h2 : Extends E W c2 c3) :
    Extends E (fun t => V t ∨ W t) c1 c3 where
  old := fun x hx => h2.old x (h1.old x hx)
  new := fun x hx => by
    rcases h2.new x hx with h | ⟨t, ht, e⟩
    · rcases h1.new x h with h | ⟨t, ht, e⟩
      · exact .inl h
      · exact .inr ⟨t, .inl ht, e⟩
    · exact .inr ⟨t, .inr ht, e⟩
  all := fun t ht => by
    rcases ht with ht | ht
    · obtain ⟨x, hx, e⟩ := h1.all t ht
      exact ⟨x, h2.old x hx, e⟩
    · exact h2.all t ht

theorem Extends.cons {E : CspEnv} {V : Term → Prop} {c c' : Csp} (h : Extends E V c c') (l : List CspCon) :
    Extends E V c { c' with cons := l } := ⟨h.old, h.new, h.all⟩

theorem Extends.congr {E : CspEnv} {V W : Term → Prop} {c c' : Csp} (h : Extends E V c c') (hw : ∀ t, V t ↔ W t) : Extends E W c c' :=
  ⟨h.old, fun x hx => (h.new x hx).imp id fun ⟨t, ht, e⟩ => ⟨t, (hw t).1 ht, e⟩, fun t ht => h.all t ((hw t).2 ht)⟩

theorem addVar_extends {E : CspEnv} {c : Csp} {x : CspVar} {t : Term} (hx : EntryOf E x t) (hn : x.name = leafText t) :
    Extends E (fun u => u = t) c (c.addVar x) ∧ (c.addVar x).cons = c.cons := by
  unfold Csp.addVar
  split
  · rename_i h
    simp only [List.any_eq_true, beq_iff_eq] at h
    obtain ⟨w, hw, e⟩ := h
    refine ⟨⟨fun _ h => h, fun _ h => .inl h, ?_⟩, rfl⟩
    rintro u rfl
    exact ⟨w, hw, e.trans hn⟩
  · refine ⟨⟨fun y h => by simp [h], fun y h => ?_, ?_⟩, rfl⟩
    · simp only [List.mem_append, List.mem_singleton] at h
      rcases h with h | rfl
      · exact .inl h
      · exact .inr ⟨t, rfl, hx⟩
    · rintro u rfl
      exact ⟨x, by simp, hn⟩

theorem cspTerm_leaf {E : CspEnv} {t : Term} (ht : IsLeaf t) {c c' : Csp} {o : Option String} (h : cspTerm E t c = .ok (c', o)) :
    o = some (leafText t) ∧ Extends E (fun u => u = t) c c' ∧ c'.cons = c.cons := by
  rcases ht with ⟨v, rfl⟩ | ⟨n, s, rfl⟩
  · simp only [cspTerm, cspVariable] at h
    cases hb : E.bounds v.sort with
    | none => simp [hb] at h
    | some b =>
      obtain ⟨lb, ub⟩ := b
      simp only [hb, Except.ok.injEq, Prod.mk.injEq] at h
      obtain ⟨rfl, rfl⟩ := h
      exact ⟨rfl, addVar_extends (t := .var v) ⟨rfl, by simp [hb]⟩ rfl⟩
  · simp only [cspTerm, cspConstant] at h
    cases hb : E.ids n s with
    | none => simp [hb] at h
    | some i =>
      simp only [hb, Except.ok.injEq, Prod.mk.injEq] at h
      obtain ⟨rfl, rfl⟩ := h
      exact ⟨rfl, addVar_extends (t := .const n s) ⟨rfl, hb, rfl⟩ rfl⟩

theorem cspTerms_leaves {E : CspEnv} : ∀ {ts : List Term}, (∀ t ∈ ts, IsLeaf t) → ∀ {c c' : Csp} {os : List (Option String)},
    cspTerms E ts c = .ok (c', os) → os = (ts.map leafText).map some ∧ Extends E (fun u => u ∈ ts) c c' ∧ c'.cons = c.cons
  | [], _, c, c', os, h => by
    simp only [cspTerms, Except.ok.injEq, Prod.mk.injEq] at h
    obtain ⟨rfl, rfl⟩ := h
    exact ⟨rfl, (Extends.refl E c).congr (by simp), rfl⟩
  | t :: ts, ht, c, c', os, h => by
    simp only [cspTerms] at h
    cases h1 : cspTerm E t c with
    | error e => simp [h1] at h
    | ok r1 =>
      obtain ⟨c1, o⟩ := r1
      simp only [h1] at h
      cases h2 : cspTerms E ts c1 with
      | error e => simp [h2] at h
      | ok r2 =>
        obtain ⟨c2, os'⟩ := r2
        simp only [h2, Except.ok.injEq, Prod.mk.injEq] at h
        obtain ⟨rfl, rfl⟩ := h
        obtain ⟨e1, x1, k1⟩ := cspTerm_leaf (ht t (by simp)) h1
        obtain ⟨e2, x2, k2⟩ := cspTerms_leaves (fun u hu => ht u (by simp [hu])) h2
        exact ⟨by simp [e1, e2], (x1.trans x2).congr (by simp), k2.trans k1⟩

/-- `α` gives to the names of the terms `V` their values under `σ`. -/
def Agrees (I : Interp Int) (V : Term → Prop) (α : String → Int) (σ : Asg Int) : Prop := ∀ t, V t → α (leafText t) = evalT I t σ

theorem agrees_map {I : Interp Int} {α : String → Int} {σ : Asg Int} : ∀ {ts : List Term}, Agrees I (fun u => u ∈ ts) α σ →
    (ts.map leafText).map α = evalTs I ts σ
  | [], _ => rfl
  | t :: ts, h => by
    simp only [List.map_cons, evalTs, h t (by simp)]
    rw [agrees_map (ts := ts) fun u hu => h u (by simp [hu])]

theorem evalTs_constant {I : Interp Int} {σ τ : Asg Int} : ∀ {ts : List Term}, ts.all Term.isConstant = true → evalTs I ts σ = evalTs I ts τ
  | [], _ => rfl
  | t :: ts, h => by
    simp only [List.all_cons, Bool.and_eq_true] at h
    simp only [evalTs, evalTs_constant (σ := σ) (τ := τ) h.2]
    cases t <;> simp_all [Term.isConstant, evalT]

theorem cmpRel_complement {a b : Int} (c : Cmp) : cmpRel (· < ·) c.complement a b ↔ ¬ cmpRel (· < ·) c a b := by
  cases c <;> simp only [cmpRel, Cmp.complement] <;> omega

theorem cspAtom_spec {E : CspEnv} {I : Interp Int} (hE : E.Matches I) {neg : Bool} {p : PSym} {ts : List Term} (ht : ∀ t ∈ ts, IsLeaf t)
    (hc : ∀ c, p = .cmp c → ts.length = 2) {c c' : Csp} (h : cspAtom E neg p ts c = .ok c') :
    ∃ (V : Term → Prop) (news : List CspCon), (∀ t, V t → t ∈ ts) ∧ Extends E V c c' ∧ c'.cons = c.cons ++ news ∧
      ∀ α σ, Agrees I V α σ → ((∀ con ∈ news, con.Holds I α) ↔ (Sat I (.atom p ts) σ ↔ neg = false)) := by
  unfold cspAtom at h
  split at h
  · rename_i hs
    simp only [Bool.and_eq_true] at hs
    simp only [Except.ok.injEq] at h
    subst h
    refine ⟨fun _ => False, [.stateVar p ts (!neg)], by simp, (Extends.refl E c).cons _, rfl, fun α σ _ => ?_⟩
    simp only [List.mem_singleton, forall_eq, CspCon.Holds, Sat, evalTs_constant (σ := fun _ => 0) (τ := σ) hs.1, Bool.not_eq_true']
  · cases p with
    | cmp k =>
      simp only at h
      cases h1 : cspTerms E ts c with
      | error e => simp [h1] at h
      | ok r =>
        obtain ⟨c1, os⟩ := r
        obtain ⟨e1, x1, k1⟩ := cspTerms_leaves ht h1
        have hl := hc k rfl
        match ts, hl with
        | [t, u], _ =>
          simp only [List.map_cons, List.map_nil] at e1
          subst e1
          simp only [h1, Except.ok.injEq] at h
          subst h
          refine ⟨_, [_], fun _ h => h, x1.cons _, by rw [← k1], fun α σ ha => ?_⟩
          have a1 := ha t (by simp)
          have a2 := ha u (by simp)
          simp only [List.mem_singleton, forall_eq, CspCon.Holds, Sat, evalTs, Option.some.injEq, exists_and_left, exists_eq_left', a1, a2, hE.cmp k]
          cases neg with
          | false => simp
          | true => simp [cmpRel_complement]
    | user p =>
      simp only at h
      cases h1 : cspTerms E ts c with
      | error e => simp [h1] at h
      | ok r =>
        obtain ⟨c1, os⟩ := r
        simp only [h1] at h
        cases h2 : cspTerms E ts c1 with
        | error e => simp [h2] at h
        | ok r =>
          obtain ⟨c2, os2⟩ := r
          simp only [h2, Except.ok.injEq] at h
          subst h
          obtain ⟨-, x1, k1⟩ := cspTerms_leaves ht h1
          obtain ⟨e2, x2, k2⟩ := cspTerms_leaves ht h2
          refine ⟨_, [.table p os2 neg], fun _ h => h, ((x1.trans x2).congr (by simp)).cons _, by rw [← k1, ← k2], fun α σ ha => ?_⟩
          simp only [List.mem_singleton, forall_eq, CspCon.Holds, Sat, ← agrees_map ha]
          constructor
          · rintro ⟨ns, hns, h⟩
            have : ns = ts.map leafText := by
              rw [e2] at hns
              exact (List.map_injective_iff.2 (fun _ _ h => Option.some.inj h) hns).symm
            rw [this] at h
            exact h
          · exact fun h => ⟨_, e2, h⟩

mutual
theorem cspFormula_spec {E : CspEnv} {I : Interp Int} (hE : E.Matches I) (f : Formula) (hf : FlatConj f) {c c' : Csp}
    (h : cspFormula E f c = .ok c') :
    ∃ (V : Term → Prop) (news : List CspCon), (∀ t, V t → ArgF t f) ∧ Extends E V c c' ∧ c'.cons = c.cons ++ news ∧
      ∀ α σ, Agrees I V α σ → ((∀ con ∈ news, con.Holds I α) ↔ Sat I f σ) := by
  match f with
  | .top =>
    simp only [cspFormula, Except.ok.injEq] at h
    subst h
    exact ⟨fun _ => False, [], by simp, Extends.refl E c, by simp, fun α σ _ => by simp [Sat]⟩
  | .bot => simp [FlatConj] at hf
  | .atom p ts =>
    simp only [cspFormula] at h
    obtain ⟨V, news, h1, h2, h3, h4⟩ := cspAtom_spec hE hf.1 hf.2 h
    exact ⟨V, news, h1, h2, h3, fun α σ ha => by rw [h4 α σ ha]; simp⟩
  | .comp k .not fs =>
    simp only [FlatConj] at hf
    obtain ⟨p, ts, rfl, h5, h6⟩ := hf
    simp only [cspFormula] at h
    obtain ⟨V, news, h1, h2, h3, h4⟩ := cspAtom_spec hE h5 h6 h
    refine ⟨V, news, fun t ht => .inl (h1 t ht), h2, h3, fun α σ ha => ?_⟩
    rw [h4 α σ ha]
    simp [Sat, SatAll]
  | .comp k .and fs =>
    simp only [cspFormula] at h
    simp only [FlatConj] at hf
    obtain ⟨V, news, h1, h2, h3, h4⟩ := cspFormulas_spec hE fs hf h
    exact ⟨V, news, h1, h2, h3, fun α σ ha => by rw [h4 α σ ha]; simp only [Sat]⟩
  | .comp k .or fs => simp [FlatConj] at hf
  | .quant q vs f => simp [FlatConj] at hf
theorem cspFormulas_spec {E : CspEnv} {I : Interp Int} (hE : E.Matches I) (fs : List Formula) (hf : FlatConjs fs) {c c' : Csp}
    (h : cspFormulas E fs c = .ok c') :
    ∃ (V : Term → Prop) (news : List CspCon), (∀ t, V t → ArgFs t fs) ∧ Extends E V c c' ∧ c'.cons = c.cons ++ news ∧
      ∀ α σ, Agrees I V α σ → ((∀ con ∈ news, con.Holds I α) ↔ SatAll I fs σ) := by
  match fs with
  | [] =>
    simp only [cspFormulas, Except.ok.injEq] at h
    subst h
    exact ⟨fun _ => False, [], by simp, Extends.refl E c, by simp, fun α σ _ => by simp [SatAll]⟩
  | f :: fs =>
    simp only [cspFormulas] at h
    cases e1 : cspFormula E f c with
    | error e => simp [e1] at h
    | ok c1 =>
      simp only [e1] at h
      obtain ⟨V, n1, h1, h2, h3, h4⟩ := cspFormula_spec hE f hf.1 e1
      obtain ⟨W, n2, g1, g2, g3, g4⟩ := cspFormulas_spec hE fs hf.2 h
      refine ⟨fun t => V t ∨ W t, n1 ++ n2, fun t ht => ht.imp (h1 t) (g1 t), h2.trans g2, by rw [g3, h3, List.append_assoc], fun α σ ha => ?_⟩
      simp only [List.mem_append, or_imp, forall_and, SatAll, h4 α σ fun t ht => ha t (.inl ht), g4 α σ fun t ht => ha t (.inr ht)]
end

theorem cspParams_spec {E : CspEnv} : ∀ {vs : List Var} {c c' : Csp}, cspParams E vs c = .ok c' →
    Extends E (fun t => ∃ v ∈ vs, t = .var v) c c' ∧ c'.cons = c.cons
  | [], c, c', h => by
    simp only [cspParams, Except.ok.injEq] at h
    subst h
    exact ⟨(Extends.refl E c).congr (by simp), rfl⟩
  | v :: vs, c, c', h => by
    simp only [cspParams, cspVariable] at h
    cases hb : E.bounds v.sort with
    | none => simp [hb] at h
    | some b =>
      obtain ⟨lb, ub⟩ := b
      simp only [hb] at h
      obtain ⟨x1, k1⟩ := addVar_extends (E := E) (c := c) (x := ⟨v.sym, "param", lb, ub - 1⟩) (t := .var v) ⟨rfl, by simp [hb]⟩ rfl
      obtain ⟨x2, k2⟩ := cspParams_spec h
      refine ⟨(x1.trans x2).congr fun t => ?_, k2.trans k1⟩
      simp only [List.mem_cons, exists_eq_or_imp]

/-! ### C67 -/

open Classical in
/-- C67, proved part: for preconditions that are conjunctions of literals over variables and constants, none of which is printed
like another one. -/
theorem C67_solutions_partial (E : CspEnv) (I : Interp Int) (params : List Var) (pre : Formula) (csp : Csp) (hE : E.Matches I)
    (hv : ∀ v, ArgF (.var v) pre → v ∈ params) (hf : FlatConj pre) (hn : NoClash params pre)
    (h : cspSchema E params pre = .ok csp) (σ : Asg Int) :
    ((∀ v ∈ params, I.sort v.sort (σ v)) ∧ Sat I pre σ) ↔ ∃ α, csp.Solution I α ∧ ∀ v ∈ params, α v.sym = σ v := by
  unfold cspSchema at h
  cases h1 : cspParams E params ⟨[], []⟩ with
  | error e => simp [h1] at h
  | ok c1 =>
    simp only [h1] at h
    obtain ⟨x1, k1⟩ := cspParams_spec h1
    obtain ⟨V, news, hV, x2, k2, hsem⟩ := cspFormula_spec hE pre hf h
    have x := x1.trans x2
    have hcons : csp.cons = news := by rw [k2, k1]; rfl
    have leaf : ∀ t, ((∃ v ∈ params, t = .var v) ∨ V t) → LeafOf params pre t := fun t ht => ht.imp id (hV t)
    -- every entry is the entry of one of the terms
    have entry : ∀ y ∈ csp.vars, ∃ t, ((∃ v ∈ params, t = .var v) ∨ V t) ∧ EntryOf E y t := fun y hy => by
      rcases x.new y hy with h | h
      · cases h
      · exact h
    have entryText : ∀ y t, EntryOf E y t → y.name = leafText t := fun y t hy => by
      cases t with
      | var v => exact hy.1
      | const n s => exact hy.1
      | app => exact hy.elim
      | ite => exact hy.elim
    -- and every term has an entry
    have own : ∀ t, ((∃ v ∈ params, t = .var v) ∨ V t) → ∃ y ∈ csp.vars, EntryOf E y t := fun t ht => by
      obtain ⟨y, hy, e⟩ := x.all t ht
      obtain ⟨u, hu, eu⟩ := entry y hy
      have : t = u := hn t u (leaf t ht) (leaf u hu) (e.symm.trans (entryText y u eu))
      exact ⟨y, hy, this ▸ eu⟩
    constructor
    · rintro ⟨hs, hp⟩
      obtain ⟨α, hα⟩ : ∃ α : String → Int, ∀ t, LeafOf params pre t → α (leafText t) = evalT I t σ := by
        refine ⟨fun n => if hx : ∃ t, LeafOf params pre t ∧ leafText t = n then evalT I hx.choose σ else 0, fun t ht => ?_⟩
        have hx : ∃ u, LeafOf params pre u ∧ leafText u = leafText t := ⟨t, ht, rfl⟩
        simp only [dif_pos hx]
        rw [hn _ _ hx.choose_spec.1 ht hx.choose_spec.2]
      refine ⟨α, ⟨fun y hy => ?_, ?_⟩, fun v hv' => hα (.var v) (.inl ⟨v, hv', rfl⟩)⟩
      · obtain ⟨t, ht, e⟩ := entry y hy
        rw [entryText y t e, hα t (leaf t ht)]
        cases t with
        | var v =>
          have hp : v ∈ params := by
            rcases ht with ⟨w, hw, e'⟩ | ht
            · cases e'; exact hw
            · exact hv v (hV _ ht)
          have := (hE.sort _ _ _ e.2 (σ v)).1 (hs v hp)
          simp only [evalT]
          omega
        | const n s =>
          have := hE.const n s _ e.2.1
          have := e.2.2
          simp only [evalT]
          omega
        | app => exact e.elim
        | ite => exact e.elim
      · rw [hcons]
        exact (hsem α σ fun t ht => hα t (leaf t (.inr ht))).2 hp
    · rintro ⟨α, hsol, hα⟩
      have agree : Agrees I V α σ := fun t ht => by
        obtain ⟨y, hy, e⟩ := own t (.inr ht)
        cases t with
        | var v => exact hα v (hv v (hV _ ht))
        | const n s =>
          have b := hsol.bounds y hy
          rw [e.1, e.2.2] at b
          simp only [leafText, evalT, hE.const n s _ e.2.1]
          omega
        | app => exact e.elim
        | ite => exact e.elim
      refine ⟨fun v hv' => ?_, (hsem α σ agree).1 fun con hc => hsol.cons con (hcons ▸ hc)⟩
      obtain ⟨y, hy, e⟩ := own (.var v) (.inl ⟨v, hv', rfl⟩)
      have b := hsol.bounds y hy
      rw [e.1, hα v hv'] at b
      refine (hE.sort _ _ _ e.2 (σ v)).2 ?_
      omega

/-- The compiler knows the bounds of the sort of the variable, or the id of the constant. -/
def CspEnv.Knows (E : CspEnv) : Term → Prop
  | .var v => (E.bounds v.sort).isSome
  | .const n s => (E.ids n s).isSome
  | _ => True

theorem cspTerms_returns {E : CspEnv} : ∀ {ts : List Term}, (∀ t ∈ ts, IsLeaf t ∧ E.Knows t) → ∀ c, ∃ r, cspTerms E ts c = .ok r ∧ r.2.length = ts.length
  | [], _, c => ⟨(c, []), rfl, rfl⟩
  | t :: ts, h, c => by
    have h1 : ∃ r, cspTerm E t c = .ok r := by
      obtain ⟨hl, hk⟩ := h t (by simp)
      rcases hl with ⟨v, rfl⟩ | ⟨n, s, rfl⟩
      · obtain ⟨b, hb⟩ := Option.isSome_iff_exists.1 hk
        obtain ⟨lb, ub⟩ := b
        exact ⟨_, by simp only [cspTerm, cspVariable, hb]; rfl⟩
      · obtain ⟨i, hi⟩ := Option.isSome_iff_exists.1 hk
        exact ⟨_, by simp only [cspTerm, cspConstant, hi]; rfl⟩
    obtain ⟨⟨c1, v⟩, h1⟩ := h1
    obtain ⟨⟨c2, vs⟩, h2, h3⟩ := cspTerms_returns (ts := ts) (fun u hu => h u (by simp [hu])) c1
    exact ⟨(c2, v :: vs), by simp only [cspTerms, h1, h2], by simpa using h3⟩

theorem cspAtom_returns {E : CspEnv} {neg : Bool} {p : PSym} {ts : List Term} (h : ∀ t ∈ ts, IsLeaf t ∧ E.Knows t)
    (hc : ∀ c, p = .cmp c → ts.length = 2) (c : Csp) : ∃ c', cspAtom E neg p ts c = .ok c' := by
  unfold cspAtom
  split
  · exact ⟨_, rfl⟩
  · obtain ⟨⟨c1, vs⟩, h1, h2⟩ := cspTerms_returns h c
    cases p with
    | cmp k =>
      simp only at h2
      rw [hc k rfl] at h2
      match vs, h2 with
      | [l, r], _ => exact ⟨_, by simp only [h1]; rfl⟩
    | user p =>
      obtain ⟨⟨c2, vs2⟩, h3, -⟩ := cspTerms_returns h c1
      exact ⟨_, by simp only [h1, h3]; rfl⟩

mutual
theorem cspFormula_returns {E : CspEnv} (f : Formula) (hf : FlatConj f) (hk : ∀ t, ArgF t f → E.Knows t) (c : Csp) :
    ∃ c', cspFormula E f c = .ok c' := by
  match f with
  | .top => exact ⟨c, rfl⟩
  | .bot => simp [FlatConj] at hf
  | .atom p ts =>
    simp only [cspFormula]
    exact cspAtom_returns (fun t ht => ⟨hf.1 t ht, hk t ht⟩) hf.2 c
  | .comp k .not fs =>
    simp only [FlatConj] at hf
    obtain ⟨p, ts, rfl, h5, h6⟩ := hf
    simp only [cspFormula]
    exact cspAtom_returns (fun t ht => ⟨h5 t ht, hk t (.inl ht)⟩) h6 c
  | .comp k .and fs =>
    simp only [cspFormula]
    exact cspFormulas_returns fs (by simpa only [FlatConj] using hf) hk c
  | .comp k .or fs => simp [FlatConj] at hf
  | .quant q vs f => simp [FlatConj] at hf
theorem cspFormulas_returns {E : CspEnv} (fs : List Formula) (hf : FlatConjs fs) (hk : ∀ t, ArgFs t fs → E.Knows t) (c : Csp) :
    ∃ c', cspFormulas E fs c = .ok c' := by
  match fs with
  | [] => exact ⟨c, rfl⟩
  | f :: fs =>
    obtain ⟨c1, h1⟩ := cspFormula_returns f hf.1 (fun t ht => hk t (.inl ht)) c
    obtain ⟨c2, h2⟩ := cspFormulas_returns fs hf.2 (fun t ht => hk t (.inr ht)) c1
    exact ⟨c2, by simp only [cspFormulas, h1, h2]⟩
end

/-- C67, the compilation returns on these preconditions, if all sorts have bounds and all constants ids. -/
theorem C67_returns_partial (E : CspEnv) (params : List Var) (pre : Formula) (hf : FlatConj pre)
    (hk : ∀ t, LeafOf params pre t → E.Knows t) : ∃ csp, cspSchema E params pre = .ok csp := by
  have hp : ∀ (vs : List Var) (c : Csp), (∀ v ∈ vs, v ∈ params) → ∃ c', cspParams E vs c = .ok c' := by
    intro vs
    induction vs with
    | nil => exact fun c _ => ⟨c, rfl⟩
    | cons v vs ih =>
      intro c h
      obtain ⟨⟨lb, ub⟩, hb⟩ := Option.isSome_iff_exists.1 (hk (.var v) (.inl ⟨v, h v (by simp), rfl⟩))
      simp only [cspParams, cspVariable, hb]
      exact ih _ fun w hw => h w (by simp [hw])
  obtain ⟨c, hc⟩ := hp params ⟨[], []⟩ fun v hv => hv
  obtain ⟨csp, h⟩ := cspFormula_returns pre hf (fun t ht => hk t (.inr ht)) c
  exact ⟨csp, by simp only [cspSchema, hc, h]⟩

/-! ### A concrete case -/

/-- One sort with the objects `b` (id 0) and `c` (id 1); `handempty` is a state variable. -/
def exCspEnv : CspEnv where
  bounds := fun _ => some (0, 2)
  ids := fun n _ => if n = .str "b" then some 0 else if n = .str "c" then some 1 else none
  isSV := fun p _ => p = .user "handempty"

/-- `on(1, 0)` and `on(1, 1)`, `p` of everything, `handempty`. -/
def exCspI : Interp Int where
  const := fun n _ => if n = .str "b" then 0 else 1
  fn := fun _ _ => 0
  pred := fun p ds => match p, ds with
    | .cmp c, [a, b] => cmpRel (· < ·) c a b
    | .user "on", [a, _] => a = 1
    | .user "same", [a, b] => a = b
    | .user "p", _ => True
    | .user "handempty", _ => True
    | _, _ => False
  sort := fun _ d => 0 ≤ d ∧ d < 2

theorem exCsp_matches : exCspEnv.Matches exCspI where
  const := by
    intro n s i h
    simp only [exCspEnv] at h
    simp only [exCspI]
    split at h
    · rename_i hn; simp only [Option.some.injEq] at h; rw [if_pos hn, h]
    · rename_i hn
      split at h
      · simp only [Option.some.injEq] at h; rw [if_neg hn, h]
      · cases h
  sort := by
    intro s lb ub h d
    simp only [exCspEnv, Option.some.injEq, Prod.mk.injEq] at h
    simp only [exCspI]
    omega
  cmp := fun c a b => by simp [exCspI]

/-- `on(?x, ?y) and not p(?x) and ?x != b and handempty()`. -/
def exCspPre : Formula := .comp .tuple .and [.atom (.user "on") [.var ⟨"?x", "o"⟩, .var ⟨"?y", "o"⟩], .comp .tuple .not [.atom (.user "p") [.var ⟨"?x", "o"⟩]],
  .atom (.cmp .ne) [.var ⟨"?x", "o"⟩, .const (.str "b") "o"], .atom (.user "handempty") []]

/-- Non-vacuity: all hypotheses are met, and the compilation gives four constraints on three variables. -/
example : FlatConj exCspPre ∧ NoClash [⟨"?x", "o"⟩, ⟨"?y", "o"⟩] exCspPre ∧ (∀ v, ArgF (.var v) exCspPre → v ∈ [⟨"?x", "o"⟩, ⟨"?y", "o"⟩]) ∧
    (∃ csp, cspSchema exCspEnv [⟨"?x", "o"⟩, ⟨"?y", "o"⟩] exCspPre = .ok csp ∧ csp.cons.length = 4 ∧ csp.vars.map (·.name) = ["?x", "?y", "b"]) := by
  refine ⟨?_, ?_, ?_, ?_⟩
  · simp [exCspPre, FlatConj, FlatConjs, IsLeaf]
  · intro t u ht hu
    simp only [LeafOf, exCspPre, ArgF, ArgFs, List.mem_cons, List.not_mem_nil, or_false, exists_eq_or_imp, exists_eq_left] at ht hu
    have ht : t = .var ⟨"?x", "o"⟩ ∨ t = .var ⟨"?y", "o"⟩ ∨ t = .const (.str "b") "o" := by tauto
    have hu : u = .var ⟨"?x", "o"⟩ ∨ u = .var ⟨"?y", "o"⟩ ∨ u = .const (.str "b") "o" := by tauto
    rcases ht with rfl | rfl | rfl <;> rcases hu with rfl | rfl | rfl <;> simp [leafText, Name.render]
  · intro v hv
    simp [exCspPre, ArgF, ArgFs] at hv ⊢
    tauto
  · exact ⟨_, rfl, rfl, rfl⟩

/-! ### Refutations -/

/-- A disjunctive precondition is compiled like a conjunction: the instance is applicable but no solution. -/
theorem C67_or_refuted : ∃ csp, cspSchema exCspEnv [⟨"?x", "o"⟩] (.comp .tuple .or [.atom (.user "p") [.var ⟨"?x", "o"⟩], .atom (.user "q") [.var ⟨"?x", "o"⟩]]) = .ok csp ∧
    Sat exCspI (.comp .tuple .or [.atom (.user "p") [.var ⟨"?x", "o"⟩], .atom (.user "q") [.var ⟨"?x", "o"⟩]]) (fun _ => 0) ∧
    ¬ ∃ α, csp.Solution exCspI α := by
  refine ⟨_, rfl, by simp [Sat, SatAny, exCspI], ?_⟩
  rintro ⟨α, h⟩
  obtain ⟨ns, -, h⟩ := h.cons (.table "q" [some "?x"] false) (by simp)
  simp [exCspI] at h

/-- A parameter with the name of a constant: `same(b, b)` for the parameter and the constant is compiled to the same variable, so
that all objects are solutions. -/
theorem C67_clash_refuted : ∃ csp, cspSchema exCspEnv [⟨"b", "o"⟩] (.atom (.user "same") [.var ⟨"b", "o"⟩, .const (.str "b") "o"]) = .ok csp ∧
    ¬ Sat exCspI (.atom (.user "same") [.var ⟨"b", "o"⟩, .const (.str "b") "o"]) (fun _ => 1) ∧
    csp.Solution exCspI (fun _ => 1) := by
  refine ⟨⟨[⟨"b", "param", 0, 1⟩], [.table "same" [some "b", some "b"] false]⟩, rfl, by simp [Sat, evalTs, evalT, exCspI], ⟨?_, ?_⟩⟩
  · intro v hv
    simp only [List.mem_singleton] at hv
    subst hv
    simp
  · intro c hc
    simp only [List.mem_singleton] at hc
    subst hc
    exact ⟨["b", "b"], rfl, by simp [exCspI]⟩

/-- Nested terms are lost: `p(f(?x))` is compiled to a table constraint on `None`. -/
theorem C67_nested_refuted : ∃ csp, cspSchema exCspEnv [⟨"?x", "o"⟩] (.atom (.user "p") [.app "f" [.var ⟨"?x", "o"⟩]]) = .ok csp ∧
    Sat exCspI (.atom (.user "p") [.app "f" [.var ⟨"?x", "o"⟩]]) (fun _ => 0) ∧ ¬ ∃ α, csp.Solution exCspI α := by
  refine ⟨_, rfl, by simp [Sat, exCspI], ?_⟩
  rintro ⟨α, h⟩
  exact h.cons (.tableFn "f" [some "?x"]) (by simp)

theorem C67_refuted : ¬ C67_full := fun h => by
  obtain ⟨csp, h1, h2, h3⟩ := C67_or_refuted
  obtain ⟨α, hα, -⟩ := (h exCspEnv exCspI _ _ csp exCsp_matches (by simp [ArgF, ArgFs]) h1 (fun _ => 0)).1 ⟨by simp [exCspI], h2⟩
  exact h3 ⟨α, hα⟩

end Tarski

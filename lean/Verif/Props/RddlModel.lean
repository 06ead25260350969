import Mathlib.Tactic.Common
import Mathlib.Data.List.Induction
import Mathlib.Data.List.Nodup
import Mathlib.Data.List.Forall2
import Verif.RddlModel
import Verif.ModelLemmas
import Verif.Props.PlyDomain
/-! C98: reading the sections of an RDDL model. -/
namespace Tarski

/-! ### Specification -/

/-- The numeric sorts of the language. -/
def rddlNums : List String := ["Real", "Integer", "Natural"]

/-- The names of the sorts: `object`, the numeric ones and the declared types. -/
def RModel.IsSort (M : RModel) (a : String) : Prop := a = "object" ∨ a ∈ rddlNums ∨ a ∈ M.types.map Prod.fst

/-- `c` is listed as an object of the sort `t`; the "objects" of a numeric sort are numbers. -/
def RModel.IsObj (M : RModel) (c t : String) : Prop := ∃ os, (t, os) ∈ M.objects.getD [] ∧ c ∈ os ∧ t ∉ rddlNums

/-- The objects, in order. -/
def RModel.objNames (M : RModel) : List String := (M.objects.getD []).flatMap fun g => if g.1 ∈ rddlNums then [] else g.2

/-- The sort that a type of the declaration of a variable denotes. -/
def RModel.sortFor (M : RModel) (s : String) : String :=
  if s ∈ M.types.map Prod.fst then s else if s = "real" then "Real" else if s = "int" then "Integer" else s

/-- The types in the declaration of a variable. -/
def RPvar.sig (v : RPvar) : List String := if v.isBool then v.params.getD [] else v.params.getD [] ++ [v.range]

/-- The types and objects that a model declares are legal. -/
structure RTypesOK (cast : String → String → Bool) (M : RModel) : Prop where
  top : ∀ t ∈ M.types, t.2 = "object"
  types : (M.types.map Prod.fst).Nodup
  typesNew : ∀ t ∈ M.types.map Prod.fst, t ≠ "object" ∧ t ∉ rddlNums
  groups : ∀ g ∈ M.objects.getD [], g.2 ≠ [] → M.IsSort g.1
  numbers : ∀ g ∈ M.objects.getD [], g.1 ∈ rddlNums → ∀ o ∈ g.2, cast g.1 o = true
  objs : M.objNames.Nodup
  objsNew : ∀ c ∈ M.objNames, ¬ M.IsSort c

/-- The variables that a model declares are legal: new names, and each type is a sort or one of `real` and `int`, if this word is not
the name of an object or of an earlier variable. -/
structure RVarsOK (M : RModel) : Prop where
  names : (M.vars.map RPvar.name).Nodup
  new : ∀ v ∈ M.vars, ¬ M.IsSort v.name ∧ v.name ∉ M.objNames
  sorts : ∀ pre v post, M.vars = pre ++ v :: post → ∀ s ∈ v.sig,
    M.IsSort s ∨ (s = "real" ∨ s = "int") ∧ s ∉ M.objNames ∧ s ∉ pre.map RPvar.name

/-- What an entry of the initial state says of the value. -/
def RValue.name : RValue → Name
  | .bool b => .int (if b then 1 else 0)
  | .lit n => n

/-- The argument names the object `c`, with its sort. -/
def ArgAt (M : RModel) (a : RArg) (c : Const) : Prop := ∃ o, a = .name o ∧ c.name = .str o ∧ M.IsObj o c.sort

/-- The entry is about the fluent `f` with the objects `pt`. -/
def RInit.At (M : RModel) (e : RInit) (f : String) (pt : List Const) : Prop :=
  e.fluent = f ∧ List.Forall₂ (ArgAt M) (e.args.getD []) pt

/-- A value belongs to a sort: an object of the sort, or a number that can be cast to it. -/
def RModel.ValueOK (M : RModel) (enc : String → Name → Bool) (s : String) (x : RValue) : Prop :=
  x.name ≠ .pyNone ∧ (s ∈ rddlNums ∧ enc s x.name = true ∨ s ∉ rddlNums ∧ ∃ c t, x = .lit (.str c) ∧ M.IsObj c t ∧ (s = t ∨ s = "object"))

/-- An entry of the initial state is legal: its fluent is declared, the arguments are objects of the declared types, and the value of a
fluent that is not Boolean belongs to the range. -/
def InitOK (M : RModel) (enc : String → Name → Bool) (e : RInit) : Prop :=
  ∃ v ∈ M.vars, ∃ pt, e.At M v.name pt ∧ List.Forall₂ (fun c s => s = c.sort ∨ s = "object") pt ((v.params.getD []).map M.sortFor) ∧
    (v.isBool = false → M.ValueOK enc (M.sortFor v.range) e.value)

/-- The arguments of an entry are names (not variables or numbers). -/
def RInit.Ground (e : RInit) : Prop := ∀ a ∈ e.args.getD [], ∃ c, a = RArg.name c

/-! ### Invariant -/

structure RDone (st : PInst) (ts : List String) (D : List (String × LObj)) : Prop where
  inv : TypesInv st
  types : ∀ a, a ∈ st.types ↔ a = "object" ∨ a ∈ ts
  index : ∀ a o, st.lang.index a = some o ↔ (o = .sort a ∧ (a = "object" ∨ a ∈ rddlNums ∨ a ∈ ts)) ∨ (a, o) ∈ D
  num : ∀ a ∈ rddlNums, st.lang.sorts a = some ⟨true, true⟩
  hist : ∀ a b, a ∈ st.types → (st.lang.HistR a b ↔ a ∈ ts ∧ b = "object")
  dom : ∀ c x, c ∈ st.lang.dom x ↔ ∃ t, (c, LObj.const c t) ∈ D ∧ (x = t ∨ x = "object")

theorem RDone.taken {st ts D} (h : RDone st ts D) (a : String) : Taken st a ↔ (a = "object" ∨ a ∈ rddlNums ∨ a ∈ ts) ∨ a ∈ D.map Prod.fst := by
  unfold Taken
  constructor
  · intro ha
    obtain ⟨o, ho⟩ := Option.ne_none_iff_exists'.mp ha
    rcases (h.index a o).mp ho with h1 | h1
    · exact .inl h1.2
    · exact .inr (List.mem_map.mpr ⟨_, h1, rfl⟩)
  · rintro (h1 | h1)
    · rw [(h.index a (.sort a)).mpr (.inl ⟨rfl, h1⟩)]; simp
    · obtain ⟨⟨b, o⟩, h2, rfl⟩ := List.mem_map.mp h1
      rw [(h.index b o).mpr (.inr h2)]; simp

theorem RDone.star {st ts D} (h : RDone st ts D) {t s} (ht : t ∈ st.types) : Star st.lang.HistR t s ↔ s = t ∨ s = "object" := by
  constructor
  · intro hs
    rcases star_iff_plus.mp hs with h1 | ⟨b, h1, h2⟩
    · exact .inl h1.symm
    · obtain ⟨_, rfl⟩ := (h.hist t b ht).mp h1
      rcases star_iff_plus.mp h2 with h3 | ⟨b, h3, _⟩
      · exact .inr h3.symm
      · exact absurd h3 (h.inv.objTop _)
  · rintro (rfl | rfl)
    · exact .refl _
    · exact h.inv.top t ht

theorem RDone.notSortD {st ts D} (h : RDone st ts D) {a o} (ha : (a, o) ∈ D) : (∃ s, o = .sort s) → o = .sort a := by
  rintro ⟨s, rfl⟩
  have := h.inv.names.name a _ ((h.index a _).mpr (.inr ha))
  rcases this with h1 | ⟨_, h1⟩ | ⟨_, h1⟩ | ⟨_, h1⟩
  · exact h1
  all_goals cases h1

theorem rinit_reach : LReach LOp.plain rddlInit := by
  have h1 : ∃ L1, lstep 5 Lang.init (.attachBuiltin "Real" "object") = some (L1, none) ∧
      ∃ L2, lstep 5 L1 (.attachBuiltin "Integer" "Real") = some (L2, none) ∧
      lstep 5 L2 (.attachBuiltin "Natural" "Integer") = some (rddlInit, none) := ⟨_, rfl, _, rfl, rfl⟩
  obtain ⟨L1, e1, L2, e2, e3⟩ := h1
  have r1 := reach_of_step (ok := LOp.plain) 5 (op := .attachBuiltin "Real" "object") .init trivial (by simp) (by rintro s p ⟨⟩; rfl) e1
  have r2 := reach_of_step (ok := LOp.plain) 5 (op := .attachBuiltin "Integer" "Real") r1 trivial (by simp) (by
    rintro s p ⟨⟩; have := e1; simp only [lstep] at this; cases this; rfl) e2
  exact reach_of_step (ok := LOp.plain) 5 (op := .attachBuiltin "Natural" "Integer") r2 trivial (by simp) (by
    rintro s p ⟨⟩; cases e1; cases e2; rfl) e3

theorem rinit_hist : rddlInit.hist = [("Natural", "Integer"), ("Integer", "Real"), ("Real", "object")] := rfl

theorem rinit_index : rddlInit.index = upd (upd (upd (upd (fun _ => none) "object" (some (.sort "object"))) "Real"
    (some (.sort "Real"))) "Integer" (some (.sort "Integer"))) "Natural" (some (.sort "Natural")) := rfl

theorem rinit_inv : TypesInv ⟨["object"], rddlInit⟩ := by
  have hd := domInv_reach rinit_reach
  refine ⟨hd.tree.hier, nameInv_reach rinit_reach, ?_, .head _, ?_, ?_, ?_, ?_⟩
  · intro x hx; simp [Lang.HistR, rinit_hist] at hx
  · intro t ht; simp at ht; subst ht; rfl
  · intro t ht; simp at ht; subst ht; exact .refl _
  · intro a b hab ha; simp at ha; subst ha; simp [Lang.HistR, rinit_hist] at hab
  · obtain ⟨r, hr⟩ := hd.tree.rank
    exact ⟨r, fun a b hab => hr a b (hd.tree.histPar _ _ hab)⟩

theorem rinit_done : RDone ⟨["object"], rddlInit⟩ [] [] := by
  refine ⟨rinit_inv, by simp, fun a o => ?_, ?_, fun a b ha => ?_, fun c x => ?_⟩
  · simp only [rinit_index, upd, rddlNums, List.mem_cons, List.not_mem_nil, or_false]
    by_cases h1 : a = "object"
    · subst h1; simp [eq_comm]
    · by_cases h2 : a = "Real"
      · subst h2; simp [eq_comm]
      · by_cases h3 : a = "Integer"
        · subst h3; simp [eq_comm]
        · by_cases h4 : a = "Natural"
          · subst h4; simp [eq_comm]
          · simp [h1, h2, h3, h4]
  · intro a ha
    simp only [rddlNums, List.mem_cons, List.not_mem_nil, or_false] at ha
    rcases ha with rfl | rfl | rfl <;> rfl
  · simp at ha; subst ha; simp [Lang.HistR, rinit_hist]
  · have : rddlInit.dom x = [] := rfl
    simp [this]

/-! ### Types -/

theorem declSort_index {n L a p L'} (h : declSort n L a p = some (L', none)) :
    L'.index = upd L.index a (some (.sort a)) ∧ L'.sorts = upd L.sorts a (some ⟨false, false⟩) := by
  unfold declSort at h
  split at h
  · cases h
  · unfold attachSort at h
    split at h
    · cases h
    · simp only at h
      have h1 := setParent_frame h
      obtain ⟨h2, h3, h4, h5, h6⟩ := sameNames_setParent h
      exact ⟨by simp_all, h1.2.1⟩

theorem declType_done {n st ts D a st'} (h : RDone st ts D) (hd : declType n st a "object" = some (st', none)) :
    ¬ Taken st a ∧ RDone st' (ts ++ [a]) D := by
  obtain ⟨h1, hfree⟩ := declType_inv h.inv h.inv.objT hd
  have h2 : st'.lang.index = upd st.lang.index a (some (.sort a)) ∧ st'.lang.sorts = upd st.lang.sorts a (some ⟨false, false⟩) := by
    unfold declType at hd
    split at hd
    · cases hd
    · cases hd
    · rename_i L hL
      cases hd
      exact declSort_index hL
  refine ⟨hfree, h1.inv, fun x => ?_, fun x o => ?_, fun x hx => ?_, fun x b hx => ?_, fun c x => ?_⟩
  · rw [h1.types, List.mem_cons, h.types]; simp; tauto
  · rw [h2.1]
    simp only [upd]
    by_cases hxa : x = a
    · subst hxa
      have hD : (x, o) ∉ D := fun hm => hfree ((h.taken x).mpr (.inr (List.mem_map.mpr ⟨_, hm, rfl⟩)))
      simp [hD, eq_comm]
    · simp [hxa, h.index]
  · rw [h2.2]
    have : x ≠ a := fun e => hfree ((h.taken a).mpr (.inl (.inr (.inl (e ▸ hx)))))
    simp [upd, this, h.num x hx]
  · simp only [Lang.HistR, h1.hist, List.mem_cons, Prod.mk.injEq, List.mem_append, List.not_mem_nil, or_false]
    by_cases hxa : x = a
    · subst hxa
      simp only [true_and, or_true]
      refine ⟨?_, .inl⟩
      rintro (h3 | h3)
      · exact h3
      · have h4 := (h.inv.hier.histReg _ _ h3).1
        exact absurd (by unfold Taken; rw [(h.inv.names.sort x).mp h4]; simp) hfree
    · have hx' : x ∈ st.types := by rw [h1.types] at hx; simpa [hxa] using hx
      simpa [hxa, Lang.HistR] using h.hist x b hx'
  · rw [h1.same.1, h.dom]

theorem readRTypes_done {n} : ∀ {tys L L' ts D types}, RDone ⟨types, L⟩ ts D → readRTypes n L tys = some (L', none) →
    (∀ t ∈ tys, t.2 = "object") ∧ (tys.map Prod.fst).Nodup ∧ (∀ t ∈ tys.map Prod.fst, ¬ Taken ⟨types, L⟩ t) ∧
    ∃ types', RDone ⟨types', L'⟩ (ts ++ tys.map Prod.fst) D := by
  intro tys
  induction tys with
  | nil => intro L L' ts D types h hd; simp only [readRTypes] at hd; cases hd; exact ⟨by simp, by simp, by simp, types, by simpa using h⟩
  | cons p tys ih =>
    obtain ⟨t, q⟩ := p
    intro L L' ts D types h hd
    simp only [readRTypes] at hd
    split at hd
    · rename_i hq
      split at hd
      · rename_i L1 h1
        have h2 : declType n ⟨types, L⟩ t "object" = some (⟨t :: types, L1⟩, none) := by unfold declType; simp only [h1]
        obtain ⟨h3, h4⟩ := declType_done h h2
        obtain ⟨h5, h6, h7, types', h8⟩ := ih h4 hd
        have h9 : ∀ a, Taken ⟨t :: types, L1⟩ a ↔ Taken ⟨types, L⟩ a ∨ a = t := by
          intro a; rw [h4.taken, h.taken]; simp; tauto
        refine ⟨?_, ?_, ?_, types', by simpa using h8⟩
        · rintro x (_ | ⟨_, hx⟩)
          · exact hq
          · exact h5 x hx
        · simp only [List.map_cons, List.nodup_cons]
          exact ⟨fun hm => h7 t hm ((h9 t).mpr (.inr rfl)), h6⟩
        · simp only [List.map_cons, List.mem_cons]
          rintro x (rfl | hx)
          · exact h3
          · exact fun ht => h7 x hx ((h9 x).mpr (.inl ht))
      · rename_i hne; exact absurd hd (hne L')
    · cases hd

theorem readRTypes_returns : ∀ {tys L ts D types}, RDone ⟨types, L⟩ ts D → (∀ t ∈ tys, t.2 = "object") → (tys.map Prod.fst).Nodup →
    (∀ t ∈ tys.map Prod.fst, ¬ Taken ⟨types, L⟩ t) → ∃ N L', ∀ n, N ≤ n → readRTypes n L tys = some (L', none) := by
  intro tys
  induction tys with
  | nil => intro L ts D types _ _ _ _; exact ⟨0, L, by simp [readRTypes]⟩
  | cons p tys ih =>
    obtain ⟨t, q⟩ := p
    intro L ts D types h h1 h2 h3
    have hq : q = "object" := h1 (t, q) (by simp)
    subst hq
    simp only [List.map_cons, List.nodup_cons, List.mem_cons] at h2 h3
    obtain ⟨N, st1, hN⟩ := declType_stable h.inv h.inv.objT (h3 t (.inl rfl))
    obtain ⟨h4, h5⟩ := declType_done h (hN N (Nat.le_refl _))
    obtain ⟨types1, L1⟩ := st1
    have h9 : ∀ a, Taken ⟨types1, L1⟩ a ↔ Taken ⟨types, L⟩ a ∨ a = t := by
      intro a; rw [h5.taken, h.taken]; simp; tauto
    obtain ⟨N2, L2, hN2⟩ := ih h5 (fun x hx => h1 x (by simp [hx])) h2.2 (fun x hx ht => by
      rcases (h9 x).mp ht with h6 | rfl
      · exact h3 x (.inr hx) h6
      · exact h2.1 hx)
    refine ⟨max N N2, L2, fun n hn => ?_⟩
    have h6 : declSort n L t "object" = some (L1, none) := by
      have := hN n (by omega)
      unfold declType at this
      split at this
      · cases this
      · cases this
      · rename_i L3 h3; cases this; exact h3
    simp only [readRTypes, if_true, h6, hN2 n (by omega)]

/-! ### Objects -/

theorem declConstant_cast {n L c t b} (h : ∀ i, L.sorts t = some i → i = ⟨false, false⟩) : declConstant n L c t b = declConstant n L c t true := by
  unfold declConstant
  cases hs : L.sorts t with
  | none => rfl
  | some i => rw [h i hs]; rfl

theorem declConstant_done {n st ts D c t b L} (h : RDone st ts D) (ht : t ∈ st.types) (hd : declConstant n st.lang c t b = some (L, none)) :
    ¬ Taken st c ∧ RDone ⟨st.types, L⟩ ts (D ++ [(c, .const c t)]) := by
  rw [declConstant_cast (fun i hi => by rw [h.inv.typesReg t ht] at hi; exact (Option.some.inj hi).symm)] at hd
  obtain ⟨hfree, hf⟩ := declConstant_filled h.inv ht hd
  have h2 : L.index = upd st.lang.index c (some (.const c t)) ∧ L.sorts = st.lang.sorts := by
    unfold declConstant at hd
    rw [h.inv.typesReg t ht] at hd
    simp only [Bool.false_eq_true, if_false] at hd
    split at hd
    · cases hd
    · split at hd
      · cases hd
      · cases hd; exact ⟨rfl, rfl⟩
  refine ⟨hfree, hf.inv, h.types, fun x o => ?_, fun x hx => ?_, fun x b hx => ?_, fun d x => ?_⟩
  · simp only [h2.1, upd, List.mem_append, List.mem_singleton, Prod.mk.injEq]
    by_cases hxa : x = c
    · subst hxa
      have hD : (x, o) ∉ D := fun hm => hfree ((h.taken x).mpr (.inr (List.mem_map.mpr ⟨_, hm, rfl⟩)))
      have hS : ¬ (x = "object" ∨ x ∈ rddlNums ∨ x ∈ ts) := fun hm => hfree ((h.taken x).mpr (.inl hm))
      simp [hD, hS, eq_comm]
    · simp [hxa, h.index]
  · simp [h2.2, h.num x hx]
  · have h3 := hf.hist
    simp only at h3
    simp only [Lang.HistR, h3]
    exact h.hist x b hx
  · have h3 := hf.dom d x
    simp only at h3
    rw [h3, h.dom]
    have hcls : t ∈ st.types := ht
    constructor
    · rintro (⟨u, h4, h5⟩ | ⟨u, ⟨rfl, rfl⟩, h5⟩)
      · exact ⟨u, by simp [h4], h5⟩
      · exact ⟨u, by simp, (h.star ht).mp h5⟩
    · rintro ⟨u, h4, h5⟩
      rcases List.mem_append.mp h4 with h4 | h4
      · exact .inl ⟨u, h4, h5⟩
      · simp only [List.mem_singleton, Prod.mk.injEq, LObj.const.injEq] at h4
        obtain ⟨rfl, _, rfl⟩ := h4
        exact .inr ⟨u, ⟨rfl, rfl⟩, (h.star ht).mpr h5⟩

/-- The declarations of a group of objects. -/
def groupDecls (t : String) (os : List String) : List (String × LObj) := if t ∈ rddlNums then [] else os.map fun o => (o, LObj.const o t)

theorem groupDecls_names (t : String) (os : List String) : (groupDecls t os).map Prod.fst = if t ∈ rddlNums then [] else os := by
  unfold groupDecls; split
  · rfl
  · simp [Function.comp_def]

theorem RDone.sort_cases {st ts D} (h : RDone st ts D) {t s} (hi : st.lang.index t = some (.sort s)) (hD : ∀ a b, (a, LObj.sort b) ∉ D) :
    s = t ∧ (t ∈ st.types ∨ t ∈ rddlNums) := by
  rcases (h.index t _).mp hi with h1 | h1
  · cases h1.1
    refine ⟨rfl, ?_⟩
    rw [h.types]
    tauto
  · exact absurd h1 (hD _ _)

theorem readRObjs_done {n cast t} : ∀ {os st L' ts D}, RDone st ts D → (∀ a b, (a, LObj.sort b) ∉ D) → readRObjs n cast t st.lang os = some (L', none) →
    (os ≠ [] → t ∈ st.types ∨ t ∈ rddlNums) ∧ (t ∈ rddlNums → ∀ o ∈ os, cast t o = true) ∧ ((groupDecls t os).map Prod.fst).Nodup ∧
    (∀ c ∈ (groupDecls t os).map Prod.fst, ¬ Taken st c) ∧ RDone ⟨st.types, L'⟩ ts (D ++ groupDecls t os) := by
  intro os
  induction os with
  | nil =>
    intro st L' ts D h hD hd; simp only [readRObjs] at hd; cases hd
    have : groupDecls t [] = [] := by unfold groupDecls; split <;> rfl
    simp only [this]
    exact ⟨by simp, by simp, by simp, by simp, by simpa using h⟩
  | cons o os ih =>
    intro st L' ts D h hD hd
    simp only [readRObjs] at hd
    split at hd
    · cases hd
    · rename_i s hs
      obtain ⟨rfl, hcase⟩ := h.sort_cases hs hD
      split at hd
      · rename_i L1 h1
        by_cases hnum : s ∈ rddlNums
        · have h2 : L1 = st.lang ∧ cast s o = true := by
            unfold declConstant at h1
            rw [h.num s hnum] at h1
            simp only [if_true] at h1
            split at h1
            · cases h1; exact ⟨rfl, by assumption⟩
            · cases h1
          rw [h2.1] at hd
          obtain ⟨h3, h4, h5, h6, h7⟩ := ih h hD hd
          have hg : ∀ l, groupDecls s l = [] := fun l => by simp [groupDecls, hnum]
          simp only [hg] at h5 h6 h7 ⊢
          refine ⟨fun _ => hcase, fun _ => ?_, h5, h6, h7⟩
          rintro x (_ | ⟨_, hx⟩)
          · exact h2.2
          · exact h4 hnum x hx
        · have ht : s ∈ st.types := by tauto
          obtain ⟨h2, h3⟩ := declConstant_done h ht h1
          have hg : ∀ l, groupDecls s l = l.map fun o => (o, LObj.const o s) := fun l => by simp [groupDecls, hnum]
          obtain ⟨h4, h5, h6, h7, h8⟩ := ih (st := ⟨st.types, L1⟩) h3 (by
            intro a b hm
            rcases List.mem_append.mp hm with hm | hm
            · exact hD _ _ hm
            · simp at hm) hd
          have h9 : ∀ a, Taken ⟨st.types, L1⟩ a ↔ Taken st a ∨ a = o := by
            intro a; rw [h3.taken, h.taken]; simp; tauto
          simp only [hg, List.map_cons] at h6 h7 h8 ⊢
          refine ⟨fun _ => .inl ht, fun hn => absurd hn hnum, ?_, ?_, by simpa using h8⟩
          · rw [List.nodup_cons]
            exact ⟨fun hm => h7 o hm ((h9 o).mpr (.inr rfl)), h6⟩
          · intro c hc
            rcases List.mem_cons.mp hc with rfl | hc
            · exact h2
            · exact fun hx => h7 c hc ((h9 c).mpr (.inl hx))
      · rename_i hne; exact absurd hd (hne L')
    · cases hd

theorem readRObjs_returns {cast t} : ∀ {os st ts D}, RDone st ts D → (∀ a b, (a, LObj.sort b) ∉ D) → (os ≠ [] → t ∈ st.types ∨ t ∈ rddlNums) →
    (t ∈ rddlNums → ∀ o ∈ os, cast t o = true) → ((groupDecls t os).map Prod.fst).Nodup → (∀ c ∈ (groupDecls t os).map Prod.fst, ¬ Taken st c) →
    ∃ N L', ∀ n, N ≤ n → readRObjs n cast t st.lang os = some (L', none) := by
  intro os
  induction os with
  | nil => intro st ts D _ _ _ _ _ _; exact ⟨0, st.lang, by simp [readRObjs]⟩
  | cons o os ih =>
    intro st ts D h hD hk hn hnd hfr
    have hcase := hk (by simp)
    have hidx : st.lang.index t = some (.sort t) := by
      refine (h.index t _).mpr (.inl ⟨rfl, ?_⟩)
      rw [h.types] at hcase; tauto
    by_cases hnum : t ∈ rddlNums
    · have hg : ∀ l, groupDecls t l = [] := fun l => by simp [groupDecls, hnum]
      obtain ⟨N, L', hN⟩ := ih h hD (fun _ => hcase) (fun h x hx => hn h x (by simp [hx])) (by simp [hg]) (by simp [hg])
      refine ⟨N, L', fun n hn' => ?_⟩
      have : declConstant n st.lang o t (cast t o) = some (st.lang, none) := by
        unfold declConstant
        rw [h.num t hnum]
        simp [hn hnum o (by simp)]
      simp only [readRObjs, hidx, this, hN n hn']
    · have ht : t ∈ st.types := by tauto
      have hg : ∀ l, groupDecls t l = l.map fun o => (o, LObj.const o t) := fun l => by simp [groupDecls, hnum]
      simp only [hg, List.map_cons, List.nodup_cons] at hnd hfr
      obtain ⟨N, L1, hN⟩ := declConstant_stable h.inv ht (hfr o (by simp))
      have hN' : ∀ n, N ≤ n → declConstant n st.lang o t (cast t o) = some (L1, none) := by
        intro n hn'
        rw [declConstant_cast (fun i hi => by rw [h.inv.typesReg t ht] at hi; exact (Option.some.inj hi).symm)]
        exact hN n hn'
      obtain ⟨h2, h3⟩ := declConstant_done h ht (hN' N (Nat.le_refl _))
      have h9 : ∀ a, Taken ⟨st.types, L1⟩ a ↔ Taken st a ∨ a = o := by
        intro a; rw [h3.taken, h.taken]; simp; tauto
      obtain ⟨N2, L2, hN2⟩ := ih (st := ⟨st.types, L1⟩) h3 (by
            intro a b hm
            rcases List.mem_append.mp hm with hm | hm
            · exact hD _ _ hm
            · simp at hm) (fun _ => .inl ht) (fun h => absurd h hnum) (by rw [hg]; exact hnd.2) (by
              rw [hg]
              intro c hc hx
              rcases (h9 c).mp hx with h4 | rfl
              · exact hfr c (by simp only [List.mem_cons]; exact .inr hc) h4
              · exact hnd.1 hc)
      refine ⟨max N N2, L2, fun n hn' => ?_⟩
      simp only [readRObjs, hidx, hN' n (by omega), hN2 n (by omega)]

theorem readRObjects_done {n cast} : ∀ {gs st L' ts D}, RDone st ts D → (∀ a b, (a, LObj.sort b) ∉ D) → readRObjects n cast st.lang gs = some (L', none) →
    (∀ g ∈ gs, g.2 ≠ [] → g.1 ∈ st.types ∨ g.1 ∈ rddlNums) ∧ (∀ g ∈ gs, g.1 ∈ rddlNums → ∀ o ∈ g.2, cast g.1 o = true) ∧
    ((gs.flatMap fun g => groupDecls g.1 g.2).map Prod.fst).Nodup ∧
    (∀ c ∈ (gs.flatMap fun g => groupDecls g.1 g.2).map Prod.fst, ¬ Taken st c) ∧
    RDone ⟨st.types, L'⟩ ts (D ++ gs.flatMap fun g => groupDecls g.1 g.2) := by
  intro gs
  induction gs with
  | nil => intro st L' ts D h hD hd; simp only [readRObjects] at hd; cases hd; exact ⟨by simp, by simp, by simp, by simp, by simpa using h⟩
  | cons g gs ih =>
    obtain ⟨t, os⟩ := g
    intro st L' ts D h hD hd
    simp only [readRObjects] at hd
    split at hd
    · rename_i L1 h1
      obtain ⟨h2, h3, h4, h5, h6⟩ := readRObjs_done h hD h1
      have hD' : ∀ a b, (a, LObj.sort b) ∉ D ++ groupDecls t os := by
        intro a b hm
        rcases List.mem_append.mp hm with hm | hm
        · exact hD _ _ hm
        · unfold groupDecls at hm; split at hm <;> simp at hm
      obtain ⟨h7, h8, h9, h10, h11⟩ := ih (st := ⟨st.types, L1⟩) h6 hD' hd
      have ht : ∀ a, Taken ⟨st.types, L1⟩ a ↔ Taken st a ∨ a ∈ (groupDecls t os).map Prod.fst := by
        intro a; rw [h6.taken, h.taken, List.map_append, List.mem_append]; exact or_assoc.symm
      simp only [List.flatMap_cons, List.map_append]
      refine ⟨?_, ?_, ?_, ?_, by simpa using h11⟩
      · intro g hg
        rcases List.mem_cons.mp hg with rfl | hg
        · exact h2
        · exact h7 g hg
      · intro g hg
        rcases List.mem_cons.mp hg with rfl | hg
        · exact h3
        · exact h8 g hg
      · rw [List.nodup_append]
        refine ⟨h4, h9, fun a ha b hb => ?_⟩
        rintro rfl
        exact h10 a hb ((ht a).mpr (.inr ha))
      · intro c hc
        rcases List.mem_append.mp hc with hc | hc
        · exact h5 c hc
        · exact fun hx => h10 c hc ((ht c).mpr (.inl hx))
    · rename_i hne; exact absurd hd (hne L')

theorem readRObjects_returns {cast} : ∀ {gs st ts D}, RDone st ts D → (∀ a b, (a, LObj.sort b) ∉ D) →
    (∀ g ∈ gs, g.2 ≠ [] → g.1 ∈ st.types ∨ g.1 ∈ rddlNums) → (∀ g ∈ gs, g.1 ∈ rddlNums → ∀ o ∈ g.2, cast g.1 o = true) →
    ((gs.flatMap fun g => groupDecls g.1 g.2).map Prod.fst).Nodup →
    (∀ c ∈ (gs.flatMap fun g => groupDecls g.1 g.2).map Prod.fst, ¬ Taken st c) →
    ∃ N L', ∀ n, N ≤ n → readRObjects n cast st.lang gs = some (L', none) := by
  intro gs
  induction gs with
  | nil => intro st ts D _ _ _ _ _ _; exact ⟨0, st.lang, by simp [readRObjects]⟩
  | cons g gs ih =>
    obtain ⟨t, os⟩ := g
    intro st ts D h hD hk hn hnd hfr
    simp only [List.flatMap_cons, List.map_append, List.nodup_append] at hnd hfr
    obtain ⟨N, L1, hN⟩ := readRObjs_returns h hD (hk (t, os) (by simp)) (hn (t, os) (by simp)) hnd.1 (fun c hc => hfr c (by simp only [List.mem_append]; exact .inl hc))
    obtain ⟨_, _, _, _, h6⟩ := readRObjs_done h hD (hN N (Nat.le_refl _))
    have hD' : ∀ a b, (a, LObj.sort b) ∉ D ++ groupDecls t os := by
      intro a b hm
      rcases List.mem_append.mp hm with hm | hm
      · exact hD _ _ hm
      · unfold groupDecls at hm; split at hm <;> simp at hm
    have ht : ∀ a, Taken ⟨st.types, L1⟩ a ↔ Taken st a ∨ a ∈ (groupDecls t os).map Prod.fst := by
      intro a; rw [h6.taken, h.taken, List.map_append, List.mem_append]; exact or_assoc.symm
    obtain ⟨N2, L2, hN2⟩ := ih (st := ⟨st.types, L1⟩) h6 hD' (fun g hg => hk g (by simp [hg])) (fun g hg => hn g (by simp [hg])) hnd.2.1 (by
      intro c hc hx
      rcases (ht c).mp hx with h4 | h4
      · exact hfr c (by simp only [List.mem_append]; exact .inr hc) h4
      · exact hnd.2.2 c h4 c hc rfl)
    refine ⟨max N N2, L2, fun n hn' => ?_⟩
    simp only [readRObjects, hN n (by omega), hN2 n (by omega)]

/-! ### Variables -/

/-- The sort names of a language. -/
def RSortIn (ts : List String) (a : String) : Prop := a = "object" ∨ a ∈ rddlNums ∨ a ∈ ts

theorem RDone.sort_index {st ts D} (h : RDone st ts D) {a} (ha : RSortIn ts a) : st.lang.index a = some (.sort a) ∧ (st.lang.sorts a).isSome := by
  have h1 := (h.index a _).mpr (.inl ⟨rfl, ha⟩)
  exact ⟨h1, (h.inv.names.sort a).mpr h1⟩

/-- The sort that a word denotes when it is not the name of a sort. -/
def builtinFor (ts : List String) (s : String) : String := if s ∈ ts then s else if s = "real" then "Real" else if s = "int" then "Integer" else s

theorem builtinFor_sort {ts s} (h : RSortIn ts s) : builtinFor ts s = s := by
  unfold builtinFor
  rcases h with rfl | h | h
  · simp
  · simp only [rddlNums, List.mem_cons, List.not_mem_nil, or_false] at h
    rcases h with rfl | rfl | rfl <;> simp
  · simp [h]

theorem resolve_iff {st ts D} (h : RDone st ts D) (hD : ∀ a b, (a, LObj.sort b) ∉ D) (s s' : String) :
    resolveRSort st.lang s = .ok s' ↔ (RSortIn ts s ∨ (s = "real" ∨ s = "int") ∧ s ∉ D.map Prod.fst) ∧ s' = builtinFor ts s := by
  unfold resolveRSort
  split
  · rename_i u hu
    obtain ⟨rfl, h1⟩ := h.sort_cases hu hD
    have h2 : RSortIn ts u := by rw [h.types] at h1; unfold RSortIn; tauto
    simp [h2, builtinFor_sort h2, eq_comm]
  · rename_i o hne ho
    have h1 : (s, o) ∈ D := by
      rcases (h.index s _).mp ho with h2 | h2
      · exact absurd h2.1 (hne s)
      · exact h2
    have h2 : ¬ RSortIn ts s := by
      intro h3
      have := (h.sort_index h3).1
      rw [ho] at this
      exact hne s (Option.some.inj this)
    simp only [reduceCtorEq, false_iff]
    rintro ⟨h3 | h3, _⟩
    · exact h2 h3
    · exact h3.2 (List.mem_map.mpr ⟨_, h1, rfl⟩)
  · rename_i hnone
    have h1 : ¬ Taken st s := by simp [Taken, hnone]
    rw [h.taken] at h1
    have h2 : ¬ RSortIn ts s := fun h3 => h1 (.inl h3)
    have h3 : s ∉ D.map Prod.fst := fun h3 => h1 (.inr h3)
    have h4 : (st.lang.index "Real").isSome := by rw [(h.sort_index (a := "Real") (by simp [RSortIn, rddlNums])).1]; rfl
    have h5 : (st.lang.index "Integer").isSome := by rw [(h.sort_index (a := "Integer") (by simp [RSortIn, rddlNums])).1]; rfl
    have h6 : s ∉ ts := fun hm => h2 (.inr (.inr hm))
    have h7 : s ≠ "object" := fun hm => h2 (.inl hm)
    simp only [h4, h5, if_true, h7, if_false, h2, false_or, h3, not_false_eq_true, and_true, builtinFor, h6]
    by_cases h8 : s = "real"
    · simp [h8, eq_comm]
    · by_cases h9 : s = "int"
      · simp [h9, eq_comm]
      · simp [h8, h9]

theorem resolves_iff {st ts D} (h : RDone st ts D) (hD : ∀ a b, (a, LObj.sort b) ∉ D) : ∀ (ss ss' : List String),
    resolveRSorts st.lang ss = .ok ss' ↔ (∀ s ∈ ss, RSortIn ts s ∨ (s = "real" ∨ s = "int") ∧ s ∉ D.map Prod.fst) ∧ ss' = ss.map (builtinFor ts) := by
  intro ss
  induction ss with
  | nil => intro ss'; simp [resolveRSorts, eq_comm]
  | cons s ss ih =>
    intro ss'
    simp only [resolveRSorts]
    split
    · rename_i e he
      simp only [reduceCtorEq, false_iff]
      rintro ⟨h1, _⟩
      have := (resolve_iff h hD s _).mpr ⟨h1 s (by simp), rfl⟩
      rw [he] at this; cases this
    · rename_i u hu
      obtain ⟨h1, rfl⟩ := (resolve_iff h hD s u).mp hu
      split
      · rename_i e he
        simp only [reduceCtorEq, false_iff]
        rintro ⟨h2, _⟩
        have := (ih _).mpr ⟨fun x hx => h2 x (by simp [hx]), rfl⟩
        rw [he] at this; cases this
      · rename_i us hus
        obtain ⟨h2, rfl⟩ := (ih us).mp hus
        simp only [Except.ok.injEq, List.map_cons]
        constructor
        · rintro rfl
          refine ⟨?_, rfl⟩
          rintro x (_ | ⟨_, hx⟩)
          · exact h1
          · exact h2 x hx
        · rintro ⟨_, rfl⟩; rfl

theorem builtinFor_isSort {ts s} (h : RSortIn ts s ∨ (s = "real" ∨ s = "int") ∧ True) : RSortIn ts (builtinFor ts s) := by
  rcases h with h | ⟨h, _⟩
  · rw [builtinFor_sort h]; exact h
  · unfold builtinFor
    by_cases hm : s ∈ ts
    · simp [hm, RSortIn]
    · rcases h with rfl | rfl <;> simp [hm, RSortIn, rddlNums]

/-- What a variable is declared as. -/
def varObj (ts : List String) (v : RPvar) : LObj := if v.isBool then .pred v.name (v.sig.map (builtinFor ts)) else .func v.name (v.sig.map (builtinFor ts))

theorem upd_done {st ts D a o L} (h : RDone st ts D) (hfree : ¬ Taken st a) (hinv : TypesInv ⟨st.types, L⟩) (hidx : L.index = upd st.lang.index a (some o))
    (hs : L.sorts = st.lang.sorts) (hh : L.hist = st.lang.hist) (hdom : L.dom = st.lang.dom) (hc : ∀ c t, o ≠ .const c t) :
    RDone ⟨st.types, L⟩ ts (D ++ [(a, o)]) := by
  refine ⟨hinv, h.types, fun x p => ?_, fun x hx => ?_, fun x b hx => ?_, fun d x => ?_⟩
  · simp only [hidx, upd, List.mem_append, List.mem_singleton, Prod.mk.injEq]
    by_cases hxa : x = a
    · subst hxa
      have hD : (x, p) ∉ D := fun hm => hfree ((h.taken x).mpr (.inr (List.mem_map.mpr ⟨_, hm, rfl⟩)))
      have hS : ¬ (x = "object" ∨ x ∈ rddlNums ∨ x ∈ ts) := fun hm => hfree ((h.taken x).mpr (.inl hm))
      simp [hD, hS, eq_comm]
    · simp [hxa, h.index]
  · simp only [hs]; exact h.num x hx
  · simp only [Lang.HistR, hh]; exact h.hist x b hx
  · simp only [hdom, h.dom, List.mem_append, List.mem_singleton, Prod.mk.injEq]
    constructor
    · rintro ⟨t, h1, h2⟩; exact ⟨t, .inl h1, h2⟩
    · rintro ⟨t, h1 | h1, h2⟩
      · exact ⟨t, h1, h2⟩
      · exact absurd h1.2.symm (hc d t)

theorem declPredicate_done {st ts D p sig L} (h : RDone st ts D) (hd : declPredicate st.lang p sig = (L, none)) :
    ¬ Taken st p ∧ RDone ⟨st.types, L⟩ ts (D ++ [(p, .pred p sig)]) := by
  have hni : NameInv L := nameInv_step (n := 0) (op := .predicate p sig) h.inv.names (by rw [lstep, hd])
  have hh : HierInv L := hier_step (n := 0) (op := .predicate p sig) h.inv.hier h.inv.names trivial (by simp) (by simp) (by rw [lstep, hd])
  unfold declPredicate at hd
  split at hd
  · cases hd
  · rename_i hck
    have hfree : st.lang.index p = none := (checkName_none hck).2
    have ht : ¬ Taken st p := by simp [Taken, hfree]
    split at hd
    · cases hd
    · cases hd
      exact ⟨ht, upd_done h ht ⟨hh, hni, h.inv.objTop, h.inv.objT, h.inv.typesReg, h.inv.top, h.inv.histTypes, h.inv.rank⟩ rfl rfl rfl rfl (by simp)⟩

theorem declPredicate_accepts {st : PInst} (h : TypesInv st) {p sig} (hf : ¬ Taken st p) (hs : ∀ s ∈ sig, (st.lang.sorts s).isSome) :
    ∃ L, declPredicate st.lang p sig = (L, none) := by
  have hfree : st.lang.index p = none := by simpa [Taken] using hf
  have hnone : st.lang.preds p = none := by
    cases hx : st.lang.preds p with
    | none => rfl
    | some q => exact absurd ((h.names.pred p q).mp hx) (by rw [hfree]; simp)
  have h1 : ¬ (sig.any fun a => (st.lang.sorts a).isNone) = true := by
    intro hx
    obtain ⟨a, ha, hb⟩ := List.any_eq_true.mp hx
    have := hs a ha
    cases hc : st.lang.sorts a <;> simp [hc] at hb this
  unfold declPredicate
  simp only [checkName, hnone, hfree, Option.isSome_none, Bool.false_eq_true, if_false, if_neg h1]
  exact ⟨_, rfl⟩

theorem declFunction_done {st ts D p sig L} (h : RDone st ts D) (hd : declFunction st.lang p sig = (L, none)) :
    ¬ Taken st p ∧ RDone ⟨st.types, L⟩ ts (D ++ [(p, .func p sig)]) := by
  obtain ⟨h1, _, h3⟩ := declFunction_frame h.inv hd
  have hidx : L.index = upd st.lang.index p (some (.func p sig)) := by
    unfold declFunction at hd
    split at hd
    · cases hd
    · split at hd
      · cases hd
      · split at hd
        · cases hd
        · cases hd; rfl
  exact ⟨h1, upd_done h h1 h3.inv hidx h3.sorts h3.hist h3.dom (by simp)⟩

theorem readRVar_done {st ts D v L} (h : RDone st ts D) (hD : ∀ a b, (a, LObj.sort b) ∉ D) (hd : readRVar st.lang v = (L, none)) :
    ¬ Taken st v.name ∧ (∀ s ∈ v.sig, RSortIn ts s ∨ (s = "real" ∨ s = "int") ∧ s ∉ D.map Prod.fst) ∧
    RDone ⟨st.types, L⟩ ts (D ++ [(v.name, varObj ts v)]) := by
  unfold readRVar at hd
  split at hd
  · cases hd
  · rename_i sig hsig
    have hsig' : resolveRSorts st.lang v.sig = .ok sig := hsig
    obtain ⟨h1, rfl⟩ := (resolves_iff h hD _ _).mp hsig'
    split at hd
    · rename_i hb
      obtain ⟨h2, h3⟩ := declPredicate_done h hd
      exact ⟨h2, h1, by simpa [varObj, hb] using h3⟩
    · rename_i hb
      obtain ⟨h2, h3⟩ := declFunction_done h hd
      exact ⟨h2, h1, by simpa [varObj, hb] using h3⟩

theorem readRVar_returns {st ts D v} (h : RDone st ts D) (hD : ∀ a b, (a, LObj.sort b) ∉ D) (hn : ¬ Taken st v.name)
    (hs : ∀ s ∈ v.sig, RSortIn ts s ∨ (s = "real" ∨ s = "int") ∧ s ∉ D.map Prod.fst) : ∃ L, readRVar st.lang v = (L, none) := by
  have h1 : resolveRSorts st.lang (if v.isBool then v.params.getD [] else v.params.getD [] ++ [v.range]) = .ok (v.sig.map (builtinFor ts)) :=
    (resolves_iff h hD v.sig _).mpr ⟨hs, rfl⟩
  have h2 : ∀ s ∈ v.sig.map (builtinFor ts), (st.lang.sorts s).isSome := by
    intro s hm
    obtain ⟨u, hu, rfl⟩ := List.mem_map.mp hm
    exact (h.sort_index (builtinFor_isSort ((hs u hu).imp id fun h => ⟨h.1, trivial⟩))).2
  unfold readRVar
  rw [h1]
  simp only
  split
  · exact declPredicate_accepts h.inv hn h2
  · rename_i hb
    exact declFunction_accepts h.inv hn h2 (by simp [RPvar.sig, hb])

theorem readRVars_done : ∀ {vs st L' ts D}, RDone st ts D → (∀ a b, (a, LObj.sort b) ∉ D) → readRVars st.lang vs = (L', none) →
    (vs.map RPvar.name).Nodup ∧ (∀ v ∈ vs, ¬ Taken st v.name) ∧
    (∀ pre v post, vs = pre ++ v :: post → ∀ s ∈ v.sig, RSortIn ts s ∨ (s = "real" ∨ s = "int") ∧ s ∉ D.map Prod.fst ∧ s ∉ pre.map RPvar.name) ∧
    RDone ⟨st.types, L'⟩ ts (D ++ vs.map fun v => (v.name, varObj ts v)) := by
  intro vs
  induction vs with
  | nil => intro st L' ts D h _ hd; simp only [readRVars] at hd; cases hd; exact ⟨by simp, by simp, by simp, by simpa using h⟩
  | cons v vs ih =>
    intro st L' ts D h hD hd
    simp only [readRVars] at hd
    split at hd
    · rename_i L1 h1
      obtain ⟨h2, h3, h4⟩ := readRVar_done h hD h1
      have hD' : ∀ a b, (a, LObj.sort b) ∉ D ++ [(v.name, varObj ts v)] := by
        intro a b hm
        rcases List.mem_append.mp hm with hm | hm
        · exact hD _ _ hm
        · unfold varObj at hm; split at hm <;> simp at hm
      obtain ⟨h5, h6, h7, h8⟩ := ih (st := ⟨st.types, L1⟩) h4 hD' hd
      have ht : ∀ a, Taken ⟨st.types, L1⟩ a ↔ Taken st a ∨ a = v.name := by
        intro a; rw [h4.taken, h.taken]; simp; tauto
      refine ⟨?_, ?_, ?_, by simpa using h8⟩
      · rw [List.map_cons, List.nodup_cons]
        refine ⟨fun hm => ?_, h5⟩
        obtain ⟨w, hw, he⟩ := List.mem_map.mp hm
        exact h6 w hw ((ht _).mpr (.inr he))
      · intro w hw
        rcases List.mem_cons.mp hw with rfl | hw
        · exact h2
        · exact fun hx => h6 w hw ((ht _).mpr (.inl hx))
      · intro pre w post he s hs
        cases pre with
        | nil => cases he; exact (h3 s hs).imp id fun h => ⟨h.1, h.2, by simp⟩
        | cons u pre =>
          cases he
          refine (h7 pre w post rfl s hs).imp id fun h => ⟨h.1, fun hm => h.2.1 (by simp only [List.map_append, List.mem_append]; exact .inl hm), fun hm => ?_⟩
          rw [List.map_cons] at hm
          rcases List.mem_cons.mp hm with rfl | hm
          · exact h.2.1 (by simp)
          · exact h.2.2 hm
    · rename_i hne; exact absurd hd (hne L')

theorem readRVars_returns : ∀ {vs st ts D}, RDone st ts D → (∀ a b, (a, LObj.sort b) ∉ D) → (vs.map RPvar.name).Nodup → (∀ v ∈ vs, ¬ Taken st v.name) →
    (∀ pre v post, vs = pre ++ v :: post → ∀ s ∈ v.sig, RSortIn ts s ∨ (s = "real" ∨ s = "int") ∧ s ∉ D.map Prod.fst ∧ s ∉ pre.map RPvar.name) →
    ∃ L', readRVars st.lang vs = (L', none) := by
  intro vs
  induction vs with
  | nil => intro st ts D _ _ _ _ _; exact ⟨_, rfl⟩
  | cons v vs ih =>
    intro st ts D h hD hnd hfr hs
    rw [List.map_cons, List.nodup_cons] at hnd
    obtain ⟨L1, h1⟩ := readRVar_returns h hD (hfr v (by simp)) (fun s hm => (hs [] v vs rfl s hm).imp id fun h => ⟨h.1, h.2.1⟩)
    obtain ⟨h2, h3, h4⟩ := readRVar_done h hD h1
    have hD' : ∀ a b, (a, LObj.sort b) ∉ D ++ [(v.name, varObj ts v)] := by
      intro a b hm
      rcases List.mem_append.mp hm with hm | hm
      · exact hD _ _ hm
      · unfold varObj at hm; split at hm <;> simp at hm
    have ht : ∀ a, Taken ⟨st.types, L1⟩ a ↔ Taken st a ∨ a = v.name := by
      intro a; rw [h4.taken, h.taken]; simp; tauto
    obtain ⟨L2, h5⟩ := ih (st := ⟨st.types, L1⟩) h4 hD' hnd.2 (fun w hw hx => by
      rcases (ht _).mp hx with hx | hx
      · exact hfr w (by simp [hw]) hx
      · exact hnd.1 (hx ▸ List.mem_map_of_mem hw)) (fun pre w post he s hm => by
        refine (hs (v :: pre) w post (by rw [he]; rfl) s hm).imp id fun h => ⟨h.1, ?_, fun h' => h.2.2 (by simp only [List.map_cons, List.mem_cons]; exact .inr h')⟩
        rw [List.map_append, List.mem_append]
        rintro (h' | h')
        · exact h.2.1 h'
        · exact h.2.2 (by simp only [List.map_cons, List.mem_cons]; exact .inl (by simpa using h')))
    exact ⟨L2, by simp only [readRVars, h1, h5]⟩

/-! ### The language -/

/-- Everything that a model declares besides sorts. -/
def RModel.decls (M : RModel) : List (String × LObj) :=
  ((M.objects.getD []).flatMap fun g => groupDecls g.1 g.2) ++ M.vars.map fun v => (v.name, varObj (M.types.map Prod.fst) v)

theorem objNames_eq (M : RModel) : ((M.objects.getD []).flatMap fun g => groupDecls g.1 g.2).map Prod.fst = M.objNames := by
  unfold RModel.objNames
  rw [List.map_flatMap]
  congr 1
  funext g
  exact groupDecls_names g.1 g.2

theorem noSort_groups (gs : List (String × List String)) : ∀ a b, (a, LObj.sort b) ∉ [] ++ gs.flatMap fun g => groupDecls g.1 g.2 := by
  intro a b hm
  rw [List.nil_append] at hm
  obtain ⟨g, _, h⟩ := List.mem_flatMap.mp hm
  unfold groupDecls at h
  split at h <;> simp at h

theorem readRLang_done {n cast M L} (h : readRLang n cast M = some (L, none)) : RTypesOK cast M ∧ RVarsOK M ∧
    ∃ types, RDone ⟨types, L⟩ (M.types.map Prod.fst) M.decls := by
  unfold readRLang at h
  split at h
  · rename_i L1 h1
    split at h
    · rename_i L2 h2
      simp only [Option.some.injEq] at h
      obtain ⟨a1, a2, a3, types, a4⟩ := readRTypes_done rinit_done h1
      rw [List.nil_append] at a4
      obtain ⟨b1, b2, b3, b4, b5⟩ := readRObjects_done (st := ⟨types, L1⟩) a4 (by simp) h2
      obtain ⟨c1, c2, c3, c4⟩ := readRVars_done (st := ⟨types, L2⟩) b5 (noSort_groups _) h
      rw [List.nil_append, objNames_eq] at c3
      rw [objNames_eq] at b3 b4
      have htaken : ∀ a, Taken ⟨types, L2⟩ a ↔ M.IsSort a ∨ a ∈ M.objNames := by
        intro a; rw [b5.taken, List.nil_append, objNames_eq]; rfl
      refine ⟨⟨a1, a2, fun t ht => ?_, fun g hg hne => ?_, b2, b3, fun c hc hx => ?_⟩, ⟨c1, fun v hv => ?_, c3⟩, types, by simpa [RModel.decls] using c4⟩
      · have h1 := a3 t ht
        rw [rinit_done.taken] at h1
        exact ⟨fun e => h1 (.inl (.inl e)), fun e => h1 (.inl (.inr (.inl e)))⟩
      · have h1 := b1 g hg hne
        simp only [a4.types] at h1
        unfold RModel.IsSort; tauto
      · exact b4 c hc ((a4.taken c).mpr (.inl hx))
      · have h1 := c2 v hv
        rw [htaken] at h1
        tauto
    · rename_i hne; exact absurd h (hne L)
  · rename_i hne; exact absurd h (hne L)

theorem readRLang_returns {cast M} (h1 : RTypesOK cast M) (h2 : RVarsOK M) : ∃ N L, ∀ n, N ≤ n → readRLang n cast M = some (L, none) := by
  obtain ⟨N1, L1, e1⟩ := readRTypes_returns rinit_done h1.top h1.types (fun t ht hx => by
    rw [rinit_done.taken] at hx
    have := h1.typesNew t ht
    simp at hx; tauto)
  obtain ⟨_, _, _, types, a4⟩ := readRTypes_done rinit_done (e1 N1 (Nat.le_refl _))
  rw [List.nil_append] at a4
  obtain ⟨N2, L2, e2⟩ := readRObjects_returns (st := ⟨types, L1⟩) (cast := cast) (gs := M.objects.getD []) a4 (by simp) (fun g hg hne => by
      have h3 := h1.groups g hg hne
      simp only [a4.types]
      unfold RModel.IsSort at h3; tauto) h1.numbers (by rw [objNames_eq]; exact h1.objs) (by
      rw [objNames_eq]
      intro c hc hx
      rw [a4.taken] at hx
      rcases hx with hx | hx
      · exact h1.objsNew c hc hx
      · simp at hx)
  obtain ⟨_, _, _, _, b5⟩ := readRObjects_done (st := ⟨types, L1⟩) a4 (by simp) (e2 N2 (Nat.le_refl _))
  have htaken : ∀ a, Taken ⟨types, L2⟩ a ↔ M.IsSort a ∨ a ∈ M.objNames := by
    intro a; rw [b5.taken, List.nil_append, objNames_eq]; rfl
  obtain ⟨L3, e3⟩ := readRVars_returns (st := ⟨types, L2⟩) b5 (noSort_groups _) h2.names (fun v hv hx => by
      have := h2.new v hv
      rw [htaken] at hx; tauto) (fun pre v post he s hs => by
      rw [List.nil_append, objNames_eq]
      exact h2.sorts pre v post he s hs)
  refine ⟨max N1 N2, L3, fun n hn => ?_⟩
  unfold readRLang
  simp only [e1 n (by omega), e2 n (by omega)]
  exact congrArg some e3

/-! ### C98 -/

/-- C98 (terms used above): the variables are those of the four kinds; a variable is Boolean if its range is `bool` or `boolean`; the name of the
variable with the key `a/k` is `a`. -/
theorem C98_terms (M : RModel) (v : RPvar) :
    (v ∈ M.vars ↔ v ∈ M.nonFluents ∨ v ∈ M.stateFluents ∨ v ∈ M.intermFluents ∨ v ∈ M.actionFluents) ∧
    (v.isBool = true ↔ v.range = "bool" ∨ v.range = "boolean") ∧
    (∀ a k : String, '/' ∉ a.toList → v.key = a ++ "/" ++ k → v.name = a) := by
  refine ⟨by simp [RModel.vars, or_assoc], by simp [RPvar.isBool], fun a k ha hk => ?_⟩
  unfold RPvar.name
  rw [hk]
  apply String.toList_injective
  simp only [String.toList_append, String.toList_ofList]
  have : ∀ l r : List Char, '/' ∉ l → (l ++ "/".toList ++ r).takeWhile (fun x => decide (x ≠ '/')) = l := by
    intro l r hl
    induction l with
    | nil => simp
    | cons c l ih =>
      simp only [List.mem_cons, not_or] at hl
      simp only [List.cons_append, List.takeWhile_cons, ne_eq, Ne.symm hl.1, not_false_eq_true, decide_true, if_true]
      rw [ih hl.2]
  exact this _ _ ha

example : RPvar.name ⟨"busy/1", some ["truck"], "bool", none⟩ = "busy" := (C98_terms ⟨[], none, [], [], [], [], "", "", none, [], []⟩ _).2.2 "busy" "1" (by decide) (by decide)

/-- C98 (acceptance): the types, objects and variables of a model are read without an exception exactly when they are legal. -/
theorem C98_accepts (cast : String → String → Bool) (M : RModel) : (∃ n L, readRLang n cast M = some (L, none)) ↔ RTypesOK cast M ∧ RVarsOK M := by
  constructor
  · rintro ⟨n, L, h⟩
    obtain ⟨h1, h2, _⟩ := readRLang_done h
    exact ⟨h1, h2⟩
  · rintro ⟨h1, h2⟩
    obtain ⟨N, L, h⟩ := readRLang_returns h1 h2
    exact ⟨N, L, h N (Nat.le_refl _)⟩

theorem isObj_iff (M : RModel) (c t : String) : (c, LObj.const c t) ∈ M.decls ↔ M.IsObj c t := by
  unfold RModel.decls RModel.IsObj
  rw [List.mem_append]
  constructor
  · rintro (h | h)
    · obtain ⟨⟨u, os⟩, h1, h2⟩ := List.mem_flatMap.mp h
      unfold groupDecls at h2
      split at h2
      · simp at h2
      · rename_i hn
        simp only [List.mem_map, Prod.mk.injEq, LObj.const.injEq] at h2
        obtain ⟨o, h3, rfl, _, rfl⟩ := h2
        exact ⟨os, h1, h3, hn⟩
    · obtain ⟨v, _, h2⟩ := List.mem_map.mp h
      simp only [Prod.mk.injEq] at h2
      unfold varObj at h2
      split at h2 <;> simp at h2
  · rintro ⟨os, h1, h2, h3⟩
    exact .inl (List.mem_flatMap.mpr ⟨_, h1, by simp [groupDecls, h3, h2]⟩)

/-- C98 (symbols): the index of the language has exactly the declared sorts, objects and variables: a Boolean variable is a predicate, any
other variable is a function; `real` and `int` denote `Real` and `Integer`. -/
theorem C98_symbols {n cast M L} (h : readRLang n cast M = some (L, none)) (a : String) (o : LObj) :
    L.index a = some o ↔ (o = .sort a ∧ M.IsSort a) ∨ (∃ t, o = .const a t ∧ M.IsObj a t) ∨
      ∃ v ∈ M.vars, v.name = a ∧ (if v.isBool then o = .pred a ((v.params.getD []).map M.sortFor)
        else o = .func a ((v.params.getD []).map M.sortFor ++ [M.sortFor v.range])) := by
  obtain ⟨_, _, types, hd⟩ := readRLang_done h
  rw [hd.index a o]
  apply or_congr Iff.rfl
  unfold RModel.decls
  rw [List.mem_append]
  apply or_congr
  · constructor
    · intro hm
      obtain ⟨⟨u, os⟩, h1, h2⟩ := List.mem_flatMap.mp hm
      unfold groupDecls at h2
      split at h2
      · simp at h2
      · rename_i hn
        simp only [List.mem_map, Prod.mk.injEq] at h2
        obtain ⟨x, h3, rfl, rfl⟩ := h2
        exact ⟨u, rfl, os, h1, h3, hn⟩
    · rintro ⟨t, rfl, os, h1, h2, h3⟩
      exact List.mem_flatMap.mpr ⟨_, h1, by simp [groupDecls, h3, h2]⟩
  · simp only [List.mem_map, Prod.mk.injEq]
    have key : ∀ v : RPvar, v.name = a → (varObj (M.types.map Prod.fst) v = o ↔ if v.isBool then o = .pred a ((v.params.getD []).map M.sortFor)
        else o = .func a ((v.params.getD []).map M.sortFor ++ [M.sortFor v.range])) := by
      rintro v rfl
      have h0 : builtinFor (M.types.map Prod.fst) = M.sortFor := rfl
      rw [varObj, RPvar.sig, h0]
      cases hb : v.isBool <;> simp [eq_comm]
    constructor
    · rintro ⟨v, hv, h1, h2⟩; exact ⟨v, hv, h1, (key v h1).mp h2⟩
    · rintro ⟨v, hv, h1, h2⟩; exact ⟨v, hv, h1, (key v h1).mpr h2⟩

/-- C98 (objects): the domain of a sort consists of the objects listed under this name; the domain of `object` of all. -/
theorem C98_objects {n cast M L} (h : readRLang n cast M = some (L, none)) (c x : String) :
    c ∈ L.dom x ↔ ∃ t, M.IsObj c t ∧ (x = t ∨ x = "object") := by
  obtain ⟨_, _, types, hd⟩ := readRLang_done h
  have := hd.dom c x
  simp only at this
  rw [this]
  simp only [isObj_iff]

theorem subB_iff {n cast M L} (h : readRLang n cast M = some (L, none)) (m : Nat) {a : String} (ha : a = "object" ∨ a ∈ M.types.map Prod.fst) (b : String) :
    L.subB m a b = true ↔ b = a ∨ b = "object" := by
  obtain ⟨_, _, types, hd⟩ := readRLang_done h
  have ht : a ∈ types := (hd.types a).mpr ha
  have hstar := hd.star (s := b) ht
  simp only at hstar
  unfold Lang.subB
  cases hs : isSubtype m L a b with
  | some r =>
    obtain ⟨x, L'⟩ := r
    rw [← hstar, ← isSubtype_spec hd.inv.hier hs]
    simp
  | none =>
    simp only [Option.map_none, Option.getD_none, Bool.false_eq_true, false_iff]
    unfold isSubtype at hs
    split at hs
    · cases hs
    · rename_i hne
      split at hs
      · cases hs
      · rename_i hanc
        rintro (rfl | rfl)
        · exact hne rfl
        · have h1 : a ∈ M.types.map Prod.fst := ha.resolve_left hne
          exact hanc (hd.inv.hier.histAnc _ _ ((hd.hist a "object" ht).mpr ⟨h1, rfl⟩))

/-- C98 (hierarchy): the types are direct children of `object`, without any other relation. -/
theorem C98_subtypes {n cast M L} (h : readRLang n cast M = some (L, none)) {m a b x L'} (ha : a = "object" ∨ a ∈ M.types.map Prod.fst)
    (hs : isSubtype m L a b = some (x, L')) : x = true ↔ b = a ∨ b = "object" := by
  rw [← subB_iff h m ha b]
  simp [Lang.subB, hs]

/-! ### The initial state -/

theorem isObj_unique {n cast M L} (h : readRLang n cast M = some (L, none)) {c t u} (h1 : M.IsObj c t) (h2 : M.IsObj c u) : t = u := by
  have a1 := (C98_symbols h c (.const c t)).mpr (.inr (.inl ⟨t, rfl, h1⟩))
  have a2 := (C98_symbols h c (.const c u)).mpr (.inr (.inl ⟨u, rfl, h2⟩))
  rw [a1] at a2
  simpa using a2

theorem isObj_sort {n cast M L} (h : readRLang n cast M = some (L, none)) {c t} (h1 : M.IsObj c t) : t = "object" ∨ t ∈ M.types.map Prod.fst := by
  obtain ⟨os, h2, h3, h4⟩ := h1
  have := (readRLang_done h).1.groups _ h2 (List.ne_nil_of_mem h3)
  unfold RModel.IsSort at this
  tauto

theorem argAt_unique {n cast M L} (h : readRLang n cast M = some (L, none)) {a c d} (h1 : ArgAt M a c) (h2 : ArgAt M a d) : c = d := by
  obtain ⟨o, rfl, h3, h4⟩ := h1
  obtain ⟨o', h5, h6, h7⟩ := h2
  cases h5
  cases c; cases d
  simp only at h3 h4 h6 h7
  rw [h3, h6, isObj_unique h h4 h7]

theorem at_unique {n cast M L} (h : readRLang n cast M = some (L, none)) {e : RInit} {f g pt qt} (h1 : e.At M f pt) (h2 : e.At M g qt) : pt = qt := by
  obtain ⟨_, h1⟩ := h1
  obtain ⟨_, h2⟩ := h2
  generalize e.args.getD [] = as at h1 h2
  induction h1 generalizing qt with
  | nil => cases h2; rfl
  | cons ha _ ih =>
    cases h2 with
    | cons hb hbs =>
      rw [ih hbs, argAt_unique h ha hb]

theorem sym_const {n cast M L} (h : readRLang n cast M = some (L, none)) (m : Nat) (c s : String) :
    (L.rddl m).sym c = some (.const s) ↔ M.IsObj c s := by
  have hx := C98_symbols h c
  simp only [Lang.rddl]
  constructor
  · intro h1
    split at h1 <;> try (simp at h1; done)
    rename_i u t hu
    simp only [Option.some.injEq, RSym.const.injEq] at h1
    subst h1
    rcases (hx _).mp hu with ⟨h2, _⟩ | ⟨t', h2, h3⟩ | ⟨v, _, _, h2⟩
    · cases h2
    · cases h2; exact h3
    · split at h2 <;> cases h2
  · intro h1
    rw [(hx _).mpr (.inr (.inl ⟨s, rfl, h1⟩))]

/-- A constant as a term. -/
def rConstTerm (c : Const) : Term := .const c.name c.sort

theorem rddlArgs_ground {n cast M L} (h : readRLang n cast M = some (L, none)) (m : Nat) : ∀ (as : List RArg) (sorts : List String) (ts : List Term),
    (∀ a ∈ as, ∃ c, a = RArg.name c) → (rddlArgs (L.rddl m) sorts as = .ok ts ↔
      ∃ pt, List.Forall₂ (ArgAt M) as pt ∧ ts = pt.map rConstTerm) := by
  intro as
  induction as with
  | nil =>
    intro sorts ts _
    simp only [rddlArgs, Except.ok.injEq]
    constructor
    · rintro rfl; exact ⟨[], .nil, rfl⟩
    · rintro ⟨pt, hp, rfl⟩; cases hp; rfl
  | cons a as ih =>
    intro sorts ts hg
    obtain ⟨c, rfl⟩ := hg a (by simp)
    have hg' : ∀ a ∈ as, ∃ c, a = RArg.name c := fun a ha => hg a (by simp [ha])
    simp only [rddlArgs]
    split
    · rename_i s hs
      have ho := (sym_const h m c s).mp hs
      split
      · rename_i x hx
        simp only [reduceCtorEq, false_iff]
        rintro ⟨pt, hp, rfl⟩
        cases hp with
        | cons _ hbs =>
          have := (ih sorts.tail _ hg').mpr ⟨_, hbs, rfl⟩
          rw [hx] at this; cases this
      · rename_i us hus
        obtain ⟨pt, h1, rfl⟩ := (ih sorts.tail _ hg').mp hus
        simp only [Except.ok.injEq]
        constructor
        · rintro rfl; exact ⟨⟨.str c, s⟩ :: pt, .cons ⟨c, rfl, rfl, ho⟩ h1, rfl⟩
        · rintro ⟨qt, hq, rfl⟩
          cases hq with
          | cons hb hbs =>
            rename_i d qt
            have := at_unique h (e := ⟨"", some as, .bool true⟩) (f := "") (g := "") ⟨rfl, h1⟩ ⟨rfl, hbs⟩
            subst this
            rw [← argAt_unique h (c := ⟨.str c, s⟩) ⟨c, rfl, rfl, ho⟩ hb]; rfl
    · rename_i hs
      simp only [reduceCtorEq, false_iff]
      rintro ⟨pt, hp, rfl⟩
      cases hp with
      | cons hb _ =>
        obtain ⟨o, h2, _, h4⟩ := hb
        cases h2
        have := (sym_const h m _ _).mpr h4
        rw [hs] at this; cases this
    · rename_i hs1 hs2
      simp only [reduceCtorEq, false_iff]
      rintro ⟨pt, hp, rfl⟩
      cases hp with
      | cons hb _ =>
        obtain ⟨o, h2, _, h4⟩ := hb
        cases h2
        exact hs1 _ ((sym_const h m _ _).mpr h4)

theorem checkArgs_iff {n cast M L} (h : readRLang n cast M = some (L, none)) (m : Nat) {as : List RArg} {pt : List Const}
    (hp : List.Forall₂ (ArgAt M) as pt) (sorts : List String) (enc : String → Name → Bool) :
    ((L.rddl m).checkArgs sorts (pt.map rConstTerm) = .ok () ↔ List.Forall₂ (fun c s => s = c.sort ∨ s = "object") pt sorts) ∧
    (checkElements (L.forModel m enc) (pt.map Arg.const) sorts = .ok pt ∨ ¬ List.Forall₂ (fun c s => s = c.sort ∨ s = "object") pt sorts) := by
  have key : ∀ (l : List String), List.Forall₂ (fun c s => s = c.sort ∨ s = "object") pt l ↔
      pt.length = l.length ∧ ((pt.map rConstTerm).zip l).all (fun p => (L.rddl m).sub ((L.rddl m).sortOf p.1) p.2) = true := by
    induction hp with
    | nil => intro l; cases l <;> simp
    | @cons a c as cs ha hrest ih =>
      intro l
      cases l with
      | nil => simp
      | cons s l =>
        obtain ⟨o, _, _, ho⟩ := ha
        simp only [List.forall₂_cons, ih, List.length_cons, Nat.add_right_cancel_iff, List.map_cons, List.zip_cons_cons, List.all_cons, Bool.and_eq_true]
        have : (L.rddl m).sub ((L.rddl m).sortOf (rConstTerm c)) s = true ↔ s = c.sort ∨ s = "object" := by
          simp only [RddlLang.sortOf, rConstTerm]
          exact subB_iff h m (isObj_sort h ho) s
        rw [this]; tauto
  refine ⟨?_, ?_⟩
  · rw [key]
    unfold RddlLang.checkArgs
    simp only [List.length_map]
    split
    · rename_i h1; simp [h1]
    · split <;> simp_all
  · by_cases hf : List.Forall₂ (fun c s => s = c.sort ∨ s = "object") pt sorts
    · refine .inl ?_
      clear key
      induction hp generalizing sorts with
      | nil => rfl
      | cons ha _ ih =>
        cases hf with
        | cons h1 h2 =>
          obtain ⟨o, _, _, ho⟩ := ha
          have h3 := (subB_iff h m (isObj_sort h ho) _).mpr h1
          simp only [List.map_cons, checkElements, checkElement, Lang.forModel, h3, if_true]
          have h4 := ih _ h2
          simp only [Lang.forModel] at h4
          rw [h4]
    · exact .inr hf

theorem checkElements_snoc (ML : MLang) : ∀ (pt : List Const) (ss : List String) (v : Arg) (s : String), checkElements ML (pt.map Arg.const) ss = .ok pt →
    pt.length = ss.length → checkElements ML (pt.map Arg.const ++ [v]) (ss ++ [s]) = (checkElement ML v s).map fun c => pt ++ [c] := by
  intro pt
  induction pt with
  | nil =>
    intro ss v s _ hl
    cases ss with
    | nil => simp only [List.map_nil, List.nil_append, checkElements]; cases checkElement ML v s <;> rfl
    | cons _ _ => simp at hl
  | cons c pt ih =>
    intro ss v s h hl
    cases ss with
    | nil => simp at hl
    | cons t ss =>
      simp only [List.map_cons, List.cons_append, checkElements] at h ⊢
      split at h
      · cases h
      · rename_i d hd
        split at h
        · cases h
        · rename_i ds hds
          simp only [Except.ok.injEq, List.cons.injEq] at h
          obtain ⟨rfl, rfl⟩ := h
          rw [ih ss v s hds (by simpa using hl)]
          cases checkElement ML v s <;> rfl

theorem isInterval_iff {n cast M L} (h : readRLang n cast M = some (L, none)) (s : String) : L.isIntervalB s = true ↔ s ∈ rddlNums := by
  obtain ⟨_, _, types, hd⟩ := readRLang_done h
  unfold Lang.isIntervalB
  constructor
  · intro h1
    split at h1
    · rename_i i hi
      have h2 := (hd.inv.names.sort s).mp (by simp only; rw [hi]; rfl)
      have h3 := hd.sort_cases h2 (by
        intro a b hm
        unfold RModel.decls at hm
        rcases List.mem_append.mp hm with hm | hm
        · exact noSort_groups _ a b (by rwa [List.nil_append])
        · obtain ⟨v, _, h4⟩ := List.mem_map.mp hm
          simp only [Prod.mk.injEq, varObj] at h4
          split at h4 <;> simp at h4)
      rcases h3.2 with h4 | h4
      · have := hd.inv.typesReg s h4
        simp only at this
        rw [hi] at this
        cases this
        simp at h1
      · exact h4
    · simp at h1
  · intro h1
    have := hd.num s h1
    simp only at this
    rw [this]

theorem valueOK_iff {n cast M L} (h : readRLang n cast M = some (L, none)) (m : Nat) (enc : String → Name → Bool) (s : String) (x : RValue) :
    (∃ c, checkElement (L.forModel m enc) x.arg s = .ok c) ∧ x.name ≠ .pyNone ↔ M.ValueOK enc s x := by
  have harg : x.arg = .lit x.name := by cases x <;> rfl
  have hself : L.subB m s s = true := by simp [Lang.subB, isSubtype]
  unfold RModel.ValueOK
  rw [and_comm]
  apply and_congr_right
  intro _
  rw [harg]
  simp only [checkElement, Lang.forModel, hself, if_true]
  by_cases hn : s ∈ rddlNums
  · rw [(isInterval_iff h s).mpr hn]
    simp only [if_true, hn, true_and, not_true_eq_false, false_and, or_false]
    split <;> simp_all
  · have h1 : L.isIntervalB s = false := by rw [Bool.eq_false_iff]; exact fun h2 => hn ((isInterval_iff h s).mp h2)
    rw [h1]
    simp only [Bool.false_eq_true, if_false, hn, false_and, not_false_eq_true, true_and, false_or]
    cases x with
    | bool b => simp [RValue.name]
    | lit y =>
      cases y with
      | str c =>
        have hm := C98_objects h c s
        by_cases hc : c ∈ L.dom s
        · simp only [RValue.name, hc, decide_true, if_true]
          obtain ⟨t, h2, h3⟩ := hm.mp hc
          exact ⟨fun _ => ⟨c, t, rfl, h2, h3⟩, fun _ => ⟨_, rfl⟩⟩
        · simp only [RValue.name, hc, decide_false, Bool.false_eq_true, if_false, reduceCtorEq, exists_false, false_iff]
          rintro ⟨c', t, h2, h3, h4⟩
          cases h2
          exact hc (hm.mpr ⟨t, h3, h4⟩)
      | _ => simp [RValue.name]

/-- What a legal entry does. -/
def initStep (L : MLang) (m : MState) (v : RPvar) (cod : String) (pt : List Const) (x : RValue) : MState :=
  if v.isBool then (if x = .bool true then { m with preds := dinsert m.preds (L.psig v.name) (ptAdd ((dlookup m.preds (L.psig v.name)).getD []) pt) } else m)
  else { m with fns := dinsert m.fns (L.fsig v.name) (dinsert ((dlookup m.fns (L.fsig v.name)).getD []) pt ⟨x.name, cod⟩) }

theorem map_rTermArg (pt : List Const) : (pt.map rConstTerm).map rTermArg = pt.map Arg.const := by
  induction pt with
  | nil => rfl
  | cons c pt ih => simp only [List.map_cons, ih]; rfl

theorem forall2_len {α β} {R : α → β → Prop} {l : List α} {r : List β} (h : List.Forall₂ R l r) : l.length = r.length := by
  induction h with
  | nil => rfl
  | cons _ _ ih => simp [ih]

theorem checkElement_lit {ML : MLang} {n s c} (h : checkElement ML (.lit n) s = .ok c) : c = ⟨n, s⟩ := by
  simp only [checkElement] at h
  split at h
  · split at h
    · cases h; rfl
    · cases h
  · cases h

theorem readRInit_spec {n cast M L} (h : readRLang n cast M = some (L, none)) (m : Nat) (enc : String → Name → Bool) (st : MState) (e : RInit) (hg : e.Ground) :
    (∃ v ∈ M.vars, ∃ pt, e.At M v.name pt ∧ List.Forall₂ (fun c s => s = c.sort ∨ s = "object") pt ((v.params.getD []).map M.sortFor) ∧
      (v.isBool = false → M.ValueOK enc (M.sortFor v.range) e.value) ∧
      readRInit m enc L st e = (initStep (L.forModel m enc) st v (M.sortFor v.range) pt e.value, none)) ∨
    (¬ InitOK M enc e ∧ ∃ x, (readRInit m enc L st e).2 = some x) := by
  have hsym := C98_symbols h e.fluent
  have hnot : (∀ v ∈ M.vars, v.name = e.fluent → ¬ InitOK M enc e) → (∀ v ∈ M.vars, v.name ≠ e.fluent) → ¬ InitOK M enc e := by
    rintro _ h1 ⟨v, hv, pt, h2, _⟩
    exact h1 v hv h2.1.symm
  have hvar : ∀ v ∈ M.vars, v.name = e.fluent → L.index e.fluent = some (if v.isBool then .pred e.fluent ((v.params.getD []).map M.sortFor)
        else .func e.fluent ((v.params.getD []).map M.sortFor ++ [M.sortFor v.range])) := by
    intro v hv hvn
    refine (hsym _).mpr (.inr (.inr ⟨v, hv, hvn, ?_⟩))
    split <;> rfl
  by_cases hx : ∃ v ∈ M.vars, v.name = e.fluent
  · obtain ⟨v, hv, hvn⟩ := hx
    have hidx := hvar v hv hvn
    have huniq : ∀ w ∈ M.vars, w.name = e.fluent → w = v := by
      intro w hw hwn
      have hnd := (readRLang_done h).2.1.names
      exact List.inj_on_of_nodup_map hnd hw hv (hwn.trans hvn.symm)
    have hsorts : ∀ sorts, sorts = (v.params.getD []).map M.sortFor → (L.rddl m).sym e.fluent = (if v.isBool then some (.pred sorts) else some (.fn sorts (M.sortFor v.range))) := by
      rintro sorts rfl
      simp only [Lang.rddl, hidx]
      cases v.isBool with
      | true => rfl
      | false => simp
    have hsym' := hsorts _ rfl
    generalize hS : (v.params.getD []).map M.sortFor = sorts at *
    cases hargs : rddlArgs (L.rddl m) sorts (e.args.getD []) with
    | error x =>
      refine .inr ⟨?_, x, ?_⟩
      · rintro ⟨w, hw, pt, h2, _⟩
        have := (rddlArgs_ground h m _ sorts _ hg).mpr ⟨pt, h2.2, rfl⟩
        rw [hargs] at this; cases this
      · unfold readRInit readPvar
        rw [hsym']
        cases v.isBool <;> simp [hargs]
    | ok ts =>
      obtain ⟨pt, hp, rfl⟩ := (rddlArgs_ground h m _ sorts _ hg).mp hargs
      have hat : e.At M v.name pt := ⟨hvn.symm, hp⟩
      obtain ⟨hc1, hc2⟩ := checkArgs_iff h m hp sorts enc
      cases hck : (L.rddl m).checkArgs sorts (pt.map rConstTerm) with
      | error x =>
        refine .inr ⟨?_, x, ?_⟩
        · rintro ⟨w, hw, qt, h2, h3, _⟩
          rw [huniq w hw h2.1.symm, hS] at h3
          rw [at_unique h h2 hat] at h3
          have := hc1.mpr h3
          rw [hck] at this; cases this
        · unfold readRInit readPvar
          rw [hsym']
          cases v.isBool <;> simp [hargs, hck]
      | ok u =>
        have hfit := hc1.mp hck
        have hel := hc2.resolve_right (fun h => h hfit)
        have hlen := forall2_len hfit
        cases hb : v.isBool with
        | true =>
          refine .inl ⟨v, hv, pt, hat, hS ▸ hfit, by simp [hb], ?_⟩
          have hps : (L.forModel m enc).psorts e.fluent = sorts := by
            have h1 := (readRLang_done h).2.2
            obtain ⟨types, hd⟩ := h1
            have h2 := (hd.inv.names.pred e.fluent sorts).mpr (by simp only; rw [hidx, hb]; rfl)
            simp only at h2
            simp [Lang.forModel, h2]
          unfold readRInit readPvar
          rw [hsym', hb]
          simp only [if_true, hargs, hck, Bool.false_eq_true, if_false, map_rTermArg, initStep, hb, MState.add, checkAssignment, hps, List.length_map, hlen, ne_eq,
            not_true_eq_false, hel, hvn]
          split <;> rfl
        | false =>
          have hfs : (L.forModel m enc).fsorts e.fluent = sorts ++ [M.sortFor v.range] := by
            obtain ⟨types, hd⟩ := (readRLang_done h).2.2
            have h2 := (hd.inv.names.func e.fluent (sorts ++ [M.sortFor v.range])).mpr (by simp only; rw [hidx, hb]; rfl)
            simp only at h2
            simp [Lang.forModel, h2]
          have harg : e.value.arg = .lit e.value.name := by cases e.value <;> rfl
          have hall : ((pt.map Arg.const).all Arg.isConst = false) = False := by
            simp [Arg.isConst]
          have hread : readRInit m enc L st e = st.set (L.forModel m enc) e.fluent false (pt.map Arg.const) e.value.arg := by
            unfold readRInit readPvar
            rw [hsym', hb]
            simp only [Bool.false_eq_true, if_false, hargs, hck, map_rTermArg]
          by_cases hpy : e.value.name = .pyNone
          · refine .inr ⟨?_, ?_⟩
            · rintro ⟨w, hw, qt, h2, h3, h4⟩
              rw [huniq w hw h2.1.symm] at h4
              exact (h4 hb).1 hpy
            · rw [hread, harg, hpy]
              simp only [MState.set, Bool.false_eq_true, if_false, hall, if_true, checkAssignment, hfs, List.length_append, List.length_map, hlen, List.length_singleton]
              rw [if_pos (by omega)]
              exact ⟨_, rfl⟩
          · have hne : ¬ Arg.lit e.value.name = .lit .pyNone := by simpa using hpy
            have hchk : checkAssignment (L.forModel m enc) (sorts ++ [M.sortFor v.range]) (pt.map Arg.const ++ [Arg.lit e.value.name]) =
                (checkElement (L.forModel m enc) (.lit e.value.name) (M.sortFor v.range)).map fun c => pt ++ [c] := by
              unfold checkAssignment
              rw [if_neg (by simp [hlen])]
              exact checkElements_snoc _ _ _ _ _ hel hlen
            cases hv' : checkElement (L.forModel m enc) (.lit e.value.name) (M.sortFor v.range) with
            | error x =>
              refine .inr ⟨?_, x, ?_⟩
              · rintro ⟨w, hw, qt, h2, h3, h4⟩
                rw [huniq w hw h2.1.symm] at h4
                obtain ⟨⟨c, hc⟩, _⟩ := (valueOK_iff h m enc _ _).mpr (h4 hb)
                rw [harg, hv'] at hc; cases hc
              · rw [hread, harg]
                simp only [MState.set, Bool.false_eq_true, if_false, hall, hfs, hne, hchk, hv', Except.map]
            | ok c =>
              refine .inl ⟨v, hv, pt, hat, hS ▸ hfit, fun _ => (valueOK_iff h m enc _ _).mp ⟨⟨c, by rw [harg]; exact hv'⟩, hpy⟩, ?_⟩
              have hc := checkElement_lit hv'
              rw [hread, harg]
              simp only [MState.set, Bool.false_eq_true, if_false, hall, hfs, hne, hchk, hv', Except.map, initStep, hb, hvn, hc]
              simp
  · have h1 : ∀ v ∈ M.vars, v.name ≠ e.fluent := fun v hv hn => hx ⟨v, hv, hn⟩
    refine .inr ⟨?_, ?_⟩
    · rintro ⟨v, hv, pt, h2, _⟩
      exact h1 v hv h2.1.symm
    · unfold readRInit readPvar
      cases hi : L.index e.fluent with
      | none => simp only [Lang.rddl, hi]; exact ⟨_, rfl⟩
      | some o =>
        rcases (hsym o).mp hi with ⟨rfl, _⟩ | ⟨t, rfl, _⟩ | ⟨v, hv, h2, _⟩
        · simp only [Lang.rddl, hi]
          split
          · exact ⟨_, rfl⟩
          all_goals (rename_i h3; split at h3 <;> simp at h3)
        · simp only [Lang.rddl, hi]
          split
          · exact ⟨_, rfl⟩
          all_goals (rename_i h3; split at h3 <;> simp at h3)
        · exact absurd h2 (h1 v hv)

theorem readRInits_accepts {n cast M L} (h : readRLang n cast M = some (L, none)) (m : Nat) (enc : String → Name → Bool) : ∀ (es : List RInit) (st : MState),
    (∀ e ∈ es, e.Ground) → ((∃ st', readRInits m enc L st es = (st', none)) ↔ ∀ e ∈ es, InitOK M enc e) := by
  intro es
  induction es with
  | nil => intro st _; simp [readRInits]
  | cons e es ih =>
    intro st hg
    have ih' := fun st => ih st (fun x hx => hg x (by simp [hx]))
    rcases readRInit_spec h m enc st e (hg e (by simp)) with ⟨v, hv, pt, h1, h2, h3, h4⟩ | ⟨h1, x, h2⟩
    · simp only [readRInits, h4, ih', List.forall_mem_cons]
      exact ⟨fun h5 => ⟨⟨v, hv, pt, h1, h2, h3⟩, h5⟩, fun h5 => h5.2⟩
    · constructor
      · rintro ⟨st', h3⟩
        simp only [readRInits] at h3
        split at h3
        · rename_i h4; rw [h4] at h2; cases h2
        · rw [h3] at h2; cases h2
      · intro h3; exact absurd (h3 e (by simp)) h1

/-- C98 (initial state, acceptance): entries whose arguments are names are accepted exactly when each of them is legal. -/
theorem C98_init_accepts {n cast M L} (h : readRLang n cast M = some (L, none)) (m : Nat) (enc : String → Name → Bool) (es : List RInit)
    (hg : ∀ e ∈ es, e.Ground) : (∃ st, readRInits m enc L MState.empty es = (st, none)) ↔ ∀ e ∈ es, InitOK M enc e :=
  readRInits_accepts h m enc es _ hg

theorem initStep_holds (ML : MLang) (st : MState) (v : RPvar) (cod : String) (pt : List Const) (x : RValue) (p : String) (qt : List Const) :
    (initStep ML st v cod pt x).holds ML p qt = true ↔ st.holds ML p qt = true ∨ v.isBool = true ∧ x = .bool true ∧ v.name = p ∧ pt = qt := by
  unfold initStep
  cases hb : v.isBool with
  | false => simp [holds_iff]
  | true =>
    simp only [if_true, true_and]
    split
    · rename_i hx
      simp only [holds_iff, dlookup_dinsert, hx, true_and, psig_inj]
      by_cases hp : v.name = p
      · subst hp
        simp only [if_true, Option.some.injEq, exists_eq_left', mem_ptAdd, true_and]
        constructor
        · rintro (rfl | h1)
          · exact .inr rfl
          · cases hd : dlookup st.preds (ML.psig v.name) with
            | none => rw [hd] at h1; simp at h1
            | some ext => rw [hd] at h1; exact .inl ⟨ext, rfl, h1⟩
        · rintro (⟨ext, h1, h2⟩ | rfl)
          · rw [h1]; exact .inr h2
          · exact .inl rfl
      · simp [hp]
    · rename_i hx; simp [hx]

theorem initStep_value (ML : MLang) (st : MState) (v : RPvar) (cod : String) (pt : List Const) (x : RValue) (f : String) (qt : List Const) (c : Const) :
    (initStep ML st v cod pt x).value ML f qt = .ok c ↔
      (v.isBool = false ∧ v.name = f ∧ pt = qt ∧ c = ⟨x.name, cod⟩) ∨ (¬ (v.isBool = false ∧ v.name = f ∧ pt = qt) ∧ st.value ML f qt = .ok c) := by
  unfold initStep
  cases hb : v.isBool with
  | true =>
    simp only [if_true, Bool.true_eq_false, false_and, false_or, not_false_eq_true, true_and]
    split
    · simp [value_iff]
    · rfl
  | false =>
    simp only [Bool.false_eq_true, if_false, true_and]
    rw [value_iff]
    simp only [dlookup_dinsert, fsig_inj]
    by_cases hf : v.name = f
    · subst hf
      simp only [if_true, Option.some.injEq, exists_eq_left', dlookup_dinsert, true_and]
      by_cases hp : pt = qt
      · simp [hp, eq_comm]
      · simp only [hp, if_false, false_and, false_or, not_false_eq_true, true_and]
        rw [value_iff]
        cases hd : dlookup st.fns (ML.fsig v.name) with
        | none => simp [dlookup]
        | some d => simp
    · simp only [hf, if_false, false_and, false_or, not_false_eq_true, true_and]
      rw [value_iff]

theorem readRInits_holds {n cast M L} (h : readRLang n cast M = some (L, none)) (m : Nat) (enc : String → Name → Bool) {v : RPvar} (hv : v ∈ M.vars)
    (hb : v.isBool = true) (pt : List Const) : ∀ (es : List RInit) (st st' : MState), (∀ e ∈ es, e.Ground) → readRInits m enc L st es = (st', none) →
    (st'.holds (L.forModel m enc) v.name pt = true ↔ st.holds (L.forModel m enc) v.name pt = true ∨ ∃ e ∈ es, e.At M v.name pt ∧ e.value = .bool true) := by
  intro es
  induction es with
  | nil => intro st st' _ hr; simp only [readRInits] at hr; cases hr; simp
  | cons e es ih =>
    intro st st' hg hr
    rcases readRInit_spec h m enc st e (hg e (by simp)) with ⟨w, hw, qt, h1, h2, h3, h4⟩ | ⟨h1, x, h2⟩
    · simp only [readRInits, h4] at hr
      rw [ih _ _ (fun x hx => hg x (by simp [hx])) hr, initStep_holds, or_assoc, List.exists_mem_cons_iff]
      apply or_congr_right
      apply or_congr_left
      constructor
      · rintro ⟨_, h5, h6, rfl⟩; exact ⟨h6 ▸ h1, h5⟩
      · rintro ⟨h5, h6⟩
        have hwv : w = v := List.inj_on_of_nodup_map (readRLang_done h).2.1.names hw hv (h1.1.symm.trans h5.1)
        subst hwv
        exact ⟨hb, h6, rfl, at_unique h h1 h5⟩
    · simp only [readRInits] at hr
      split at hr
      · rename_i h4; rw [h4] at h2; cases h2
      · rw [hr] at h2; cases h2

/-- C98 (Boolean fluents): a Boolean fluent holds exactly of the objects for which some entry gives it the value true. -/
theorem C98_init_true {n cast M L} (h : readRLang n cast M = some (L, none)) {m : Nat} {enc : String → Name → Bool} {es : List RInit} {st : MState}
    (hg : ∀ e ∈ es, e.Ground) (hr : readRInits m enc L MState.empty es = (st, none)) {v : RPvar} (hv : v ∈ M.vars) (hb : v.isBool = true) (pt : List Const) :
    st.holds (L.forModel m enc) v.name pt = true ↔ ∃ e ∈ es, e.At M v.name pt ∧ e.value = .bool true := by
  rw [readRInits_holds h m enc hv hb pt es _ _ hg hr]
  simp [MState.holds, MState.empty, dlookup]

theorem readRInits_value {n cast M L} (h : readRLang n cast M = some (L, none)) (m : Nat) (enc : String → Name → Bool) {v : RPvar} (hv : v ∈ M.vars)
    (hb : v.isBool = false) (pt : List Const) (c : Const) : ∀ (es : List RInit) (st st' : MState), (∀ e ∈ es, e.Ground) → readRInits m enc L st es = (st', none) →
    (st'.value (L.forModel m enc) v.name pt = .ok c ↔
      (∃ pre e post, es = pre ++ e :: post ∧ e.At M v.name pt ∧ c = ⟨e.value.name, M.sortFor v.range⟩ ∧ ∀ x ∈ post, ¬ x.At M v.name pt) ∨
      (st.value (L.forModel m enc) v.name pt = .ok c ∧ ∀ x ∈ es, ¬ x.At M v.name pt)) := by
  intro es
  induction es with
  | nil => intro st st' _ hr; simp only [readRInits] at hr; cases hr; simp
  | cons e es ih =>
    intro st st' hg hr
    rcases readRInit_spec h m enc st e (hg e (by simp)) with ⟨w, hw, qt, h1, h2, h3, h4⟩ | ⟨h1, x, h2⟩
    · simp only [readRInits, h4] at hr
      rw [ih _ _ (fun x hx => hg x (by simp [hx])) hr, initStep_value]
      have key : (w.isBool = false ∧ w.name = v.name ∧ qt = pt) ↔ e.At M v.name pt := by
        constructor
        · rintro ⟨_, h6, rfl⟩; exact h6 ▸ h1
        · intro h5
          have hwv : w = v := List.inj_on_of_nodup_map (readRLang_done h).2.1.names hw hv (h1.1.symm.trans h5.1)
          subst hwv
          exact ⟨hb, rfl, at_unique h h1 h5⟩
      have key2 : (w.isBool = false ∧ w.name = v.name ∧ qt = pt ∧ c = ⟨e.value.name, M.sortFor w.range⟩) ↔ e.At M v.name pt ∧ c = ⟨e.value.name, M.sortFor v.range⟩ := by
        constructor
        · rintro ⟨h5, h6, h7, h8⟩
          have hwv : w = v := List.inj_on_of_nodup_map (readRLang_done h).2.1.names hw hv h6
          exact ⟨key.mp ⟨h5, h6, h7⟩, hwv ▸ h8⟩
        · rintro ⟨h5, h6⟩
          obtain ⟨a, b, d⟩ := key.mpr h5
          have hwv : w = v := List.inj_on_of_nodup_map (readRLang_done h).2.1.names hw hv b
          exact ⟨a, b, d, hwv ▸ h6⟩
      rw [key2, key]
      constructor
      · rintro (⟨pre, x, post, rfl, h5⟩ | ⟨⟨h5, h6⟩ | ⟨h5, h6⟩, h7⟩)
        · exact .inl ⟨e :: pre, x, post, rfl, h5⟩
        · exact .inl ⟨[], e, es, rfl, h5, h6, h7⟩
        · refine .inr ⟨h6, fun x hx => ?_⟩
          rcases List.mem_cons.mp hx with rfl | hx
          · exact h5
          · exact h7 x hx
      · rintro (⟨pre, x, post, he, h5, h6, h7⟩ | ⟨h5, h6⟩)
        · cases pre with
          | nil => cases he; exact .inr ⟨.inl ⟨h5, h6⟩, h7⟩
          | cons y pre => cases he; exact .inl ⟨pre, x, post, rfl, h5, h6, h7⟩
        · exact .inr ⟨.inr ⟨h6 e (by simp), h5⟩, fun x hx => h6 x (by simp [hx])⟩
    · simp only [readRInits] at hr
      split at hr
      · rename_i h4; rw [h4] at h2; cases h2
      · rw [hr] at h2; cases h2

/-- C98 (other fluents): the value of a fluent that is not Boolean is the one given by the last entry about it, as a constant of the range;
without an entry it has no value. -/
theorem C98_init_value {n cast M L} (h : readRLang n cast M = some (L, none)) {m : Nat} {enc : String → Name → Bool} {es : List RInit} {st : MState}
    (hg : ∀ e ∈ es, e.Ground) (hr : readRInits m enc L MState.empty es = (st, none)) {v : RPvar} (hv : v ∈ M.vars) (hb : v.isBool = false)
    (pt : List Const) (c : Const) : st.value (L.forModel m enc) v.name pt = .ok c ↔
      ∃ pre e post, es = pre ++ e :: post ∧ e.At M v.name pt ∧ c = ⟨e.value.name, M.sortFor v.range⟩ ∧ ∀ x ∈ post, ¬ x.At M v.name pt := by
  rw [readRInits_value h m enc hv hb pt c es _ _ hg hr]
  simp [MState.value, MState.empty, dlookup]

/-- C98 (whole model): a model whose entries have names as arguments is read without an exception exactly when its declarations and entries
are legal; the parameters are those of the instance, and the initial state is given by the entries of the instance followed by those of the
non-fluents. -/
theorem C98_model (cast : String → String → Bool) (enc : String → Name → Bool) (M : RModel) (hg : ∀ e ∈ M.initState ++ M.initNonFluent, e.Ground) :
    ((∃ n L st P, readRddl n cast enc M = some (.ok (L, st, P))) ↔ RTypesOK cast M ∧ RVarsOK M ∧ ∀ e ∈ M.initState ++ M.initNonFluent, InitOK M enc e) ∧
    (∀ n L st P, readRddl n cast enc M = some (.ok (L, st, P)) → P = ⟨M.horizon, M.discount, M.maxNondef⟩ ∧ readRLang n cast M = some (L, none) ∧
      readRInits n enc L MState.empty (M.initState ++ M.initNonFluent) = (st, none)) := by
  have h2 : ∀ n L st P, readRddl n cast enc M = some (.ok (L, st, P)) → P = ⟨M.horizon, M.discount, M.maxNondef⟩ ∧ readRLang n cast M = some (L, none) ∧
      readRInits n enc L MState.empty (M.initState ++ M.initNonFluent) = (st, none) := by
    intro n L st P hr
    unfold readRddl at hr
    split at hr
    · cases hr
    · cases hr
    · rename_i L1 h1
      split at hr
      · cases hr
      · rename_i st1 h3
        cases hr
        exact ⟨rfl, h1, h3⟩
  refine ⟨⟨?_, ?_⟩, h2⟩
  · rintro ⟨n, L, st, P, hr⟩
    obtain ⟨_, h3, h4⟩ := h2 n L st P hr
    obtain ⟨h5, h6, _⟩ := readRLang_done h3
    exact ⟨h5, h6, (C98_init_accepts h3 n enc _ hg).mp ⟨st, h4⟩⟩
  · rintro ⟨h3, h4, h5⟩
    obtain ⟨N, L, hN⟩ := readRLang_returns h3 h4
    have h6 := hN N (Nat.le_refl _)
    obtain ⟨st, h7⟩ := (C98_init_accepts h6 N enc _ hg).mpr h5
    exact ⟨N, L, st, ⟨M.horizon, M.discount, M.maxNondef⟩, by unfold readRddl; rw [h6]; simp only; rw [h7]⟩

/-! ### Examples and refutations -/

/-- A model: two types, objects, a static distance, a Boolean and an object-valued fluent. -/
def exRModel : RModel where
  types := [("place", "object"), ("truck", "object")]
  objects := some [("place", ["depot", "shop"]), ("truck", ["t1"])]
  nonFluents := [⟨"DIST/2", some ["place", "place"], "real", none⟩]
  stateFluents := [⟨"busy/1", some ["truck"], "bool", none⟩, ⟨"pos/1", some ["truck"], "place", none⟩]
  intermFluents := []
  actionFluents := [⟨"go/2", some ["truck", "place"], "bool", none⟩]
  horizon := "20"
  discount := "1.0"
  maxNondef := none
  initState := [⟨"busy", some [.name "t1"], .bool true⟩, ⟨"pos", some [.name "t1"], .lit (.str "depot")⟩]
  initNonFluent := [⟨"DIST", some [.name "depot", .name "shop"], .lit (.int 7)⟩]

theorem exRModel_vars : exRModel.vars.map RPvar.name = ["DIST", "busy", "pos", "go"] := by
  have h : ∀ k p r d, RPvar.name ⟨k, p, r, d⟩ = String.ofList (k.toList.takeWhile (· ≠ '/')) := fun _ _ _ _ => rfl
  simp only [RModel.vars, exRModel, List.map_append, List.map_cons, List.map_nil, h]
  decide

theorem exRModel_ok : RTypesOK (fun _ _ => false) exRModel ∧ RVarsOK exRModel := by
  have hobj : exRModel.objNames = ["depot", "shop", "t1"] := by decide
  have hsort : ∀ a, exRModel.IsSort a ↔ a ∈ ["object", "Real", "Integer", "Natural", "place", "truck"] := by
    intro a; simp [RModel.IsSort, rddlNums, exRModel]; tauto
  refine ⟨⟨by decide, by decide, by decide, ?_, by decide, by rw [hobj]; decide, ?_⟩, ⟨by rw [exRModel_vars]; decide, ?_, ?_⟩⟩
  · intro g hg _
    rw [hsort]
    revert g
    decide
  · simp only [hsort, hobj]; decide
  · intro v hv
    have h1 : v.name ∈ ["DIST", "busy", "pos", "go"] := by rw [← exRModel_vars]; exact List.mem_map_of_mem hv
    rw [hsort, hobj]
    revert h1
    generalize v.name = a
    intro h1
    simp only [List.mem_cons, List.not_mem_nil, or_false] at h1
    rcases h1 with rfl | rfl | rfl | rfl <;> decide
  · intro pre v post he s hs
    have hv : v ∈ exRModel.vars := by rw [he]; simp
    have hpre : ∀ a ∈ pre.map RPvar.name, a ∈ ["DIST", "busy", "pos", "go"] := by
      intro a ha; rw [← exRModel_vars, he, List.map_append]; exact List.mem_append_left _ ha
    have hs' : s ∈ ["place", "truck"] ∨ s = "real" := by
      simp only [RModel.vars, exRModel, List.mem_append, List.mem_cons, List.not_mem_nil, or_false] at hv
      rcases hv with (rfl | rfl | rfl) | rfl
      · simp [RPvar.sig, RPvar.isBool] at hs; simp; tauto
      · simp [RPvar.sig, RPvar.isBool] at hs; simp; tauto
      · simp [RPvar.sig, RPvar.isBool] at hs; simp; tauto
      · simp [RPvar.sig, RPvar.isBool] at hs; simp; tauto
    rcases hs' with h1 | rfl
    · refine .inl ?_
      rw [hsort]; simp at h1 ⊢; tauto
    · refine .inr ⟨.inl rfl, by rw [hobj]; decide, fun hm => ?_⟩
      have := hpre _ hm
      revert this; decide

/-- The hypotheses of C98 are met: the language of the example. -/
example : ∃ n L, readRLang n (fun _ _ => false) exRModel = some (L, none) := (C98_accepts _ _).mpr exRModel_ok

theorem exRModel_obj : exRModel.IsObj "t1" "truck" ∧ exRModel.IsObj "depot" "place" ∧ exRModel.IsObj "shop" "place" :=
  ⟨⟨["t1"], by decide, by decide, by decide⟩, ⟨["depot", "shop"], by decide, by decide, by decide⟩, ⟨["depot", "shop"], by decide, by decide, by decide⟩⟩

/-- The whole example is read, if 7 is a number. -/
theorem exRModel_read : ∃ n L st P, readRddl n (fun _ _ => false) (fun s x => s = "Real" ∧ x = .int 7) exRModel = some (.ok (L, st, P)) := by
  have hg : ∀ e ∈ exRModel.initState ++ exRModel.initNonFluent, e.Ground := by
    intro e he
    simp only [exRModel, List.cons_append, List.nil_append, List.mem_cons, List.not_mem_nil, or_false] at he
    rcases he with rfl | rfl | rfl <;> simp [RInit.Ground]
  refine (C98_model _ _ _ hg).1.mpr ⟨exRModel_ok.1, exRModel_ok.2, fun e he => ?_⟩
  obtain ⟨h1, h2, h3⟩ := exRModel_obj
  have n1 : RPvar.name ⟨"busy/1", some ["truck"], "bool", none⟩ = "busy" := by decide
  have n2 : RPvar.name ⟨"pos/1", some ["truck"], "place", none⟩ = "pos" := by decide
  have n3 : RPvar.name ⟨"DIST/2", some ["place", "place"], "real", none⟩ = "DIST" := by decide
  simp only [exRModel, List.cons_append, List.nil_append, List.mem_cons, List.not_mem_nil, or_false] at he
  rcases he with rfl | rfl | rfl
  · refine ⟨⟨"busy/1", some ["truck"], "bool", none⟩, by simp [RModel.vars, exRModel], [⟨.str "t1", "truck"⟩], ⟨n1.symm, .cons ⟨"t1", rfl, rfl, h1⟩ .nil⟩, ?_, fun hb => absurd hb (by decide)⟩
    exact .cons (.inl (by decide)) .nil
  · refine ⟨⟨"pos/1", some ["truck"], "place", none⟩, by simp [RModel.vars, exRModel], [⟨.str "t1", "truck"⟩], ⟨n2.symm, .cons ⟨"t1", rfl, rfl, h1⟩ .nil⟩, ?_, fun _ => ?_⟩
    · exact .cons (.inl (by decide)) .nil
    · exact ⟨by decide, .inr ⟨by decide, "depot", "place", rfl, h2, .inl (by decide)⟩⟩
  · refine ⟨⟨"DIST/2", some ["place", "place"], "real", none⟩, by simp [RModel.vars, exRModel], [⟨.str "depot", "place"⟩, ⟨.str "shop", "place"⟩],
      ⟨n3.symm, .cons ⟨"depot", rfl, rfl, h2⟩ (.cons ⟨"shop", rfl, rfl, h3⟩ .nil)⟩, ?_, fun _ => ?_⟩
    · exact .cons (.inl (by decide)) (.cons (.inl (by decide)) .nil)
    · exact ⟨by decide, .inl ⟨by decide, by decide⟩⟩

/-- RDDL identifies a variable by its name and arity; so a model with distinct keys, otherwise legal, should be read. -/
def C98_overload_full : Prop := ∀ cast M, RTypesOK cast M → (M.vars.map RPvar.key).Nodup → (∀ v ∈ M.vars, ¬ M.IsSort v.name ∧ v.name ∉ M.objNames ∧ ∀ s ∈ v.sig, M.IsSort s) →
  ∃ n L, readRLang n cast M = some (L, none)

/-- A model with nothing but variables. -/
def onlyVars (vs : List RPvar) (es : List RInit) : RModel := ⟨[], none, [], vs, [], [], "1", "1", none, es, []⟩

theorem onlyVars_types (cast) (vs es) : RTypesOK cast (onlyVars vs es) := by
  refine ⟨?_, ?_, ?_, ?_, ?_, ?_, ?_⟩ <;> simp [onlyVars, RModel.objNames]

/-- The reader forgets the arity: `p/0` and `p/1` clash. -/
theorem C98_overload_refuted : ¬ C98_overload_full := by
  intro h
  have n0 : RPvar.name ⟨"p/0", none, "bool", none⟩ = "p" := by decide
  have n1 : RPvar.name ⟨"p/1", some ["object"], "bool", none⟩ = "p" := by decide
  have hv : (onlyVars [⟨"p/0", none, "bool", none⟩, ⟨"p/1", some ["object"], "bool", none⟩] []).vars = [⟨"p/0", none, "bool", none⟩, ⟨"p/1", some ["object"], "bool", none⟩] := rfl
  obtain ⟨n, L, h1⟩ := h (fun _ _ => false) (onlyVars [⟨"p/0", none, "bool", none⟩, ⟨"p/1", some ["object"], "bool", none⟩] []) (onlyVars_types _ _ _)
    (by rw [hv]; decide) (by
      rw [hv]
      intro v hm
      simp only [List.mem_cons, List.not_mem_nil, or_false] at hm
      rcases hm with rfl | rfl
      · rw [n0]
        refine ⟨?_, ?_, ?_⟩
        · simp [RModel.IsSort, onlyVars, rddlNums]
        · simp [RModel.objNames, onlyVars]
        · simp [RPvar.sig, RPvar.isBool]
      · rw [n1]
        refine ⟨?_, ?_, ?_⟩
        · simp [RModel.IsSort, onlyVars, rddlNums]
        · simp [RModel.objNames, onlyVars]
        · simp [RPvar.sig, RPvar.isBool, RModel.IsSort])
  have h2 := (readRLang_done h1).2.1.names
  rw [hv] at h2
  simp [n0, n1] at h2

/-- A Boolean fluent should have the value of the last entry about it, as other fluents do. -/
def C98_last_full : Prop := ∀ n cast M L m enc es st, readRLang n cast M = some (L, none) → (∀ e ∈ es, e.Ground) → readRInits m enc L MState.empty es = (st, none) →
  ∀ v ∈ M.vars, v.isBool = true → ∀ pt pre e post, es = pre ++ e :: post → e.At M v.name pt → (∀ x ∈ post, ¬ x.At M v.name pt) →
    (st.holds (L.forModel m enc) v.name pt = true ↔ e.value = .bool true)

/-- This is so if the entries about the same fluent agree. -/
theorem C98_last_partial {n cast M L m enc es st} (h : readRLang n cast M = some (L, none)) (hg : ∀ e ∈ es, e.Ground)
    (hr : readRInits m enc L MState.empty es = (st, none)) {v} (hv : v ∈ M.vars) (hb : v.isBool = true) {pt e} (he : e ∈ es) (ha : e.At M v.name pt)
    (hag : ∀ x ∈ es, x.At M v.name pt → x.value = e.value) : st.holds (L.forModel m enc) v.name pt = true ↔ e.value = .bool true := by
  rw [C98_init_true h hg hr hv hb]
  constructor
  · rintro ⟨x, hx, h1, h2⟩; rw [← hag x hx h1]; exact h2
  · intro h1; exact ⟨e, he, ha, h1⟩

theorem onlyP_read (es : List RInit) (d) (cast) : ∃ n L, readRLang n cast (onlyVars [⟨"p/0", none, "bool", d⟩] es) = some (L, none) := by
  have n0 : RPvar.name ⟨"p/0", none, "bool", d⟩ = "p" := by unfold RPvar.name; dsimp only; decide
  refine (C98_accepts _ _).mpr ⟨onlyVars_types _ _ _, ⟨?_, ?_, ?_⟩⟩
  · simp [RModel.vars, onlyVars]
  · intro v hv
    simp only [RModel.vars, onlyVars, List.nil_append, List.append_nil, List.mem_singleton] at hv
    subst hv
    rw [n0]
    exact ⟨by simp [RModel.IsSort, onlyVars, rddlNums], by simp [RModel.objNames, onlyVars]⟩
  · intro pre v post he s hs
    have hv : v ∈ (onlyVars [⟨"p/0", none, "bool", d⟩] es).vars := by rw [he]; simp
    simp only [RModel.vars, onlyVars, List.nil_append, List.append_nil, List.mem_singleton] at hv
    subst hv
    simp [RPvar.sig, RPvar.isBool] at hs

theorem onlyP_ok (es d) (enc) (b : Bool) : InitOK (onlyVars [⟨"p/0", none, "bool", d⟩] es) enc ⟨"p", none, .bool b⟩ := by
  have n0 : RPvar.name ⟨"p/0", none, "bool", d⟩ = "p" := by unfold RPvar.name; dsimp only; decide
  exact ⟨⟨"p/0", none, "bool", d⟩, by simp [RModel.vars, onlyVars], [], ⟨n0.symm, .nil⟩, .nil, by simp [RPvar.isBool]⟩

/-- `p = true; p = false;` leaves `p` true. -/
theorem C98_last_refuted : ¬ C98_last_full := by
  intro h
  have n0 : RPvar.name ⟨"p/0", none, "bool", none⟩ = "p" := by decide
  obtain ⟨n, L, h1⟩ := onlyP_read [] none (fun _ _ => false)
  have hg : ∀ e ∈ [RInit.mk "p" none (.bool true), ⟨"p", none, .bool false⟩], e.Ground := by simp [RInit.Ground]
  obtain ⟨st, h2⟩ := (C98_init_accepts h1 0 (fun _ _ => false) [⟨"p", none, .bool true⟩, ⟨"p", none, .bool false⟩] hg).mpr (by
    intro e he
    simp only [List.mem_cons, List.not_mem_nil, or_false] at he
    rcases he with rfl | rfl <;> exact onlyP_ok _ _ _ _)
  have hv : (⟨"p/0", none, "bool", none⟩ : RPvar) ∈ (onlyVars [⟨"p/0", none, "bool", none⟩] []).vars := by simp [RModel.vars, onlyVars]
  have h3 := h n _ _ L 0 _ _ st h1 hg h2 _ hv (by decide) [] [⟨"p", none, .bool true⟩] ⟨"p", none, .bool false⟩ [] rfl ⟨n0.symm, .nil⟩ (by simp)
  rw [C98_init_true h1 hg h2 hv (by decide)] at h3
  have := h3.mp ⟨⟨"p", none, .bool true⟩, by simp, ⟨n0.symm, .nil⟩, rfl⟩
  simp at this

/-- A Boolean fluent without an entry should have its default value. -/
def C98_default_full : Prop := ∀ n cast M L m enc es st, readRLang n cast M = some (L, none) → (∀ e ∈ es, e.Ground) → readRInits m enc L MState.empty es = (st, none) →
  ∀ v ∈ M.vars, v.isBool = true → ∀ b, v.default = some (.bool b) → ∀ pt, List.Forall₂ (fun (c : Const) s => s = c.sort ∨ s = "object") pt ((v.params.getD []).map M.sortFor) →
    (∀ e ∈ es, ¬ e.At M v.name pt) → (st.holds (L.forModel m enc) v.name pt = true ↔ b = true)

/-- This is so if the default is false. -/
theorem C98_default_partial {n cast M L m enc es st} (h : readRLang n cast M = some (L, none)) (hg : ∀ e ∈ es, e.Ground)
    (hr : readRInits m enc L MState.empty es = (st, none)) {v} (hv : v ∈ M.vars) (hb : v.isBool = true) {pt}
    (hno : ∀ e ∈ es, ¬ e.At M v.name pt) : st.holds (L.forModel m enc) v.name pt = false := by
  rw [Bool.eq_false_iff]
  intro h1
  obtain ⟨e, he, h2, _⟩ := (C98_init_true h hg hr hv hb pt).mp h1
  exact hno e he h2

/-- Default values are ignored. -/
theorem C98_default_refuted : ¬ C98_default_full := by
  intro h
  obtain ⟨n, L, h1⟩ := onlyP_read [] (some (.bool true)) (fun _ _ => false)
  have hv : (⟨"p/0", none, "bool", some (.bool true)⟩ : RPvar) ∈ (onlyVars [⟨"p/0", none, "bool", some (.bool true)⟩] []).vars := by simp [RModel.vars, onlyVars]
  have hr : readRInits 0 (fun _ _ => false) L MState.empty [] = (MState.empty, none) := rfl
  have h2 := (h n _ _ L 0 _ [] _ h1 (by simp) hr _ hv (by decide) true rfl [] .nil (by simp)).mpr rfl
  rw [C98_default_partial h1 (by simp) hr hv (by decide) (by simp)] at h2
  cases h2

end Tarski

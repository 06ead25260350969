import Verif.Language
import Mathlib.Tactic.Common
/-! Helper lemmas for C19-C21. -/
namespace Tarski

theorem upd_self {α β} [DecidableEq α] (f : α → β) (a b) : upd f a b a = b := by simp [upd]
theorem upd_ne {α β} [DecidableEq α] (f : α → β) {a x} (b) (h : x ≠ a) : upd f a b x = f x := by simp [upd, h]

theorem Star.trans {α} {R : α → α → Prop} {a b c} (h : Star R a b) (h' : Star R b c) : Star R a c := by
  induction h with
  | refl => exact h'
  | step a b _ hr _ ih => exact .step _ _ _ hr (ih h')

theorem Star.mono {α} {R S : α → α → Prop} (h : ∀ a b, R a b → S a b) {a b} (hs : Star R a b) : Star S a b := by
  induction hs with
  | refl => exact .refl _
  | step a b _ hr _ ih => exact .step _ _ _ (h _ _ hr) ih

theorem Star.single {α} {R : α → α → Prop} {a b} (h : R a b) : Star R a b := .step _ _ _ h (.refl _)

/-- Non-empty path. -/
def Plus {α} (R : α → α → Prop) (a c : α) : Prop := ∃ b, R a b ∧ Star R b c

theorem Plus.star {α} {R : α → α → Prop} {a b} (h : Plus R a b) : Star R a b := by
  obtain ⟨c, h1, h2⟩ := h; exact .step _ _ _ h1 h2
theorem Plus.mono {α} {R S : α → α → Prop} (h : ∀ a b, R a b → S a b) {a b} (hs : Plus R a b) : Plus S a b := by
  obtain ⟨c, h1, h2⟩ := hs; exact ⟨c, h _ _ h1, h2.mono h⟩
theorem star_iff_plus {α} {R : α → α → Prop} {a b} : Star R a b ↔ a = b ∨ Plus R a b := by
  constructor
  · rintro (_ | ⟨_, c, _, h1, h2⟩)
    · exact Or.inl rfl
    · exact Or.inr ⟨c, h1, h2⟩
  · rintro (rfl | h)
    · exact .refl _
    · exact h.star
theorem Plus.trans_star {α} {R : α → α → Prop} {a b c} (h : Plus R a b) (h' : Star R b c) : Plus R a c := by
  obtain ⟨d, h1, h2⟩ := h; exact ⟨d, h1, h2.trans h'⟩
theorem Star.trans_plus {α} {R : α → α → Prop} {a b c} (h : Star R a b) (h' : Plus R b c) : Plus R a c := by
  rcases star_iff_plus.mp h with rfl | h
  · exact h'
  · exact h.trans_star h'.star

theorem foldl_set (l acc : List String) (x : String) :
    x ∈ l.foldl (fun acc x => if x ∈ acc then acc else x :: acc) acc ↔ x ∈ acc ∨ x ∈ l := by
  induction l generalizing acc with
  | nil => simp
  | cons a l ih =>
    simp only [List.foldl_cons, ih, List.mem_cons]
    split
    · constructor
      · rintro (h | h) <;> simp [h]
      · rintro (h | rfl | h)
        · simp [h]
        · left; assumption
        · simp [h]
    · simp only [List.mem_cons]; tauto

theorem inclusionClosure_spec (par : String → Option (Option String)) (n : Nat) (s l)
    (h : inclusionClosure par n s = some (.ok l)) :
    ∀ x, x ∈ l ↔ Star (fun a b => par a = some (some b)) s x := by
  induction n generalizing s l with
  | zero => simp [inclusionClosure] at h
  | succ n ih =>
    simp only [inclusionClosure] at h
    split at h
    · cases h
    · rename_i hp
      cases h
      intro x
      simp only [List.mem_singleton]
      constructor
      · rintro rfl; exact .refl _
      · rintro (_ | ⟨_, c, _, h1, h2⟩)
        · rfl
        · rw [hp] at h1; cases h1
    · rename_i p hp
      split at h
      · cases h
      · cases h
      · rename_i l' hl
        cases h
        intro x
        rw [List.mem_cons, ih _ _ hl x]
        constructor
        · rintro (rfl | h)
          · exact .refl _
          · exact .step _ _ _ hp h
        · rintro (_ | ⟨_, c, _, h1, h2⟩)
          · exact Or.inl rfl
          · rw [hp] at h1; cases h1; exact Or.inr h2

/-! ### Names -/

/-- The global index agrees with the four containers. -/
structure NameInv (L : Lang) : Prop where
  sort : ∀ n, (L.sorts n).isSome ↔ L.index n = some (.sort n)
  pred : ∀ n a, L.preds n = some a ↔ L.index n = some (.pred n a)
  func : ∀ n a, L.funs n = some a ↔ L.index n = some (.func n a)
  const : ∀ n s, L.consts n = some s ↔ L.index n = some (.const n s)
  name : ∀ n o, L.index n = some o → (o = .sort n ∨ (∃ a, o = .pred n a) ∨ (∃ a, o = .func n a) ∨ ∃ s, o = .const n s)

theorem checkName_none {L : Lang} {b name} (h : checkName L b name = none) :
    b = false ∧ L.index name = none := by
  unfold checkName at h
  split at h
  · cases h
  · split at h
    · cases h
    · rename_i h1 h2
      simp at h1 h2
      exact ⟨by simpa using h1, h2⟩

theorem nameInv_init : NameInv Lang.init := by
  refine ⟨?_, ?_, ?_, ?_, ?_⟩ <;> intro n
  · by_cases h : n = "object" <;> simp [Lang.init, upd, h]
  · intro a; by_cases h : n = "object" <;> simp [Lang.init, upd, h]
  · intro a; by_cases h : n = "object" <;> simp [Lang.init, upd, h]
  · intro a; by_cases h : n = "object" <;> simp [Lang.init, upd, h]
  · intro o; by_cases h : n = "object"
    · simp [Lang.init, upd, h]; intro h; exact Or.inl h.symm
    · simp [Lang.init, upd, h]

/-- Fields relevant for names are unchanged. -/
def SameNames (L L' : Lang) : Prop :=
  L'.sorts = L.sorts ∧ L'.preds = L.preds ∧ L'.funs = L.funs ∧ L'.consts = L.consts ∧ L'.index = L.index

theorem nameInv_same {L L' : Lang} (h : SameNames L L') (hi : NameInv L) : NameInv L' := by
  obtain ⟨h1, h2, h3, h4, h5⟩ := h
  refine ⟨?_, ?_, ?_, ?_, ?_⟩
  · rw [h1, h5]; exact hi.sort
  · rw [h2, h5]; exact hi.pred
  · rw [h3, h5]; exact hi.func
  · rw [h4, h5]; exact hi.const
  · rw [h5]; exact hi.name

theorem sameNames_setParent {n L s p ow L' e} (h : setParent n L s p ow = some (L', e)) : SameNames L L' := by
  unfold setParent at h
  split at h
  · cases h; exact ⟨rfl, rfl, rfl, rfl, rfl⟩
  · simp only at h
    split at h
    · cases h
    · cases h; exact ⟨rfl, rfl, rfl, rfl, rfl⟩
    · cases h; exact ⟨rfl, rfl, rfl, rfl, rfl⟩

theorem nameInv_addSort {L : Lang} (hi : NameInv L) {name} (hn : L.index name = none) (i : SortInfo) :
    NameInv { L with sorts := upd L.sorts name (some i), index := upd L.index name (some (.sort name)) } := by
  refine ⟨?_, ?_, ?_, ?_, ?_⟩ <;> intro m
  · by_cases h : m = name
    · subst h; simp [upd]
    · simp [upd, h, hi.sort m]
  · intro a; by_cases h : m = name
    · subst h; have := hi.pred m a; simp [hn] at this; simp [upd, this]
    · simp [upd, h, hi.pred m a]
  · intro a; by_cases h : m = name
    · subst h; have := hi.func m a; simp [hn] at this; simp [upd, this]
    · simp [upd, h, hi.func m a]
  · intro a; by_cases h : m = name
    · subst h; have := hi.const m a; simp [hn] at this; simp [upd, this]
    · simp [upd, h, hi.const m a]
  · intro o; by_cases h : m = name
    · subst h; simp [upd]; intro h; exact Or.inl h.symm
    · simp [upd, h]; exact hi.name m o

theorem nameInv_addPred {L : Lang} (hi : NameInv L) {name} (hn : L.index name = none) (args) :
    NameInv { L with preds := upd L.preds name (some args), index := upd L.index name (some (.pred name args)) } := by
  refine ⟨?_, ?_, ?_, ?_, ?_⟩ <;> intro m
  · by_cases h : m = name
    · subst h; have := hi.sort m; simp [hn] at this; simp [upd, this]
    · simp [upd, h, hi.sort m]
  · intro a; by_cases h : m = name
    · subst h; simp [upd]
    · simp [upd, h, hi.pred m a]
  · intro a; by_cases h : m = name
    · subst h; have := hi.func m a; simp [hn] at this; simp [upd, this]
    · simp [upd, h, hi.func m a]
  · intro a; by_cases h : m = name
    · subst h; have := hi.const m a; simp [hn] at this; simp [upd, this]
    · simp [upd, h, hi.const m a]
  · intro o; by_cases h : m = name
    · subst h; simp [upd]; intro h; subst h; simp
    · simp [upd, h]; exact hi.name m o

theorem nameInv_addFunc {L : Lang} (hi : NameInv L) {name} (hn : L.index name = none) (args) :
    NameInv { L with funs := upd L.funs name (some args), index := upd L.index name (some (.func name args)) } := by
  refine ⟨?_, ?_, ?_, ?_, ?_⟩ <;> intro m
  · by_cases h : m = name
    · subst h; have := hi.sort m; simp [hn] at this; simp [upd, this]
    · simp [upd, h, hi.sort m]
  · intro a; by_cases h : m = name
    · subst h; have := hi.pred m a; simp [hn] at this; simp [upd, this]
    · simp [upd, h, hi.pred m a]
  · intro a; by_cases h : m = name
    · subst h; simp [upd]
    · simp [upd, h, hi.func m a]
  · intro a; by_cases h : m = name
    · subst h; have := hi.const m a; simp [hn] at this; simp [upd, this]
    · simp [upd, h, hi.const m a]
  · intro o; by_cases h : m = name
    · subst h; simp [upd]; intro h; subst h; simp
    · simp [upd, h]; exact hi.name m o

theorem nameInv_addConst {L : Lang} (hi : NameInv L) {name} (hn : L.index name = none) (s) :
    NameInv { L with consts := upd L.consts name (some s), index := upd L.index name (some (.const name s)) } := by
  refine ⟨?_, ?_, ?_, ?_, ?_⟩ <;> intro m
  · by_cases h : m = name
    · subst h; have := hi.sort m; simp [hn] at this; simp [upd, this]
    · simp [upd, h, hi.sort m]
  · intro a; by_cases h : m = name
    · subst h; have := hi.pred m a; simp [hn] at this; simp [upd, this]
    · simp [upd, h, hi.pred m a]
  · intro a; by_cases h : m = name
    · subst h; have := hi.func m a; simp [hn] at this; simp [upd, this]
    · simp [upd, h, hi.func m a]
  · intro a; by_cases h : m = name
    · subst h; simp [upd]
    · simp [upd, h, hi.const m a]
  · intro o; by_cases h : m = name
    · subst h; simp [upd]; intro h; subst h; simp
    · simp [upd, h]; exact hi.name m o

theorem nameInv_remPred {L : Lang} (hi : NameInv L) {name} (hn : (L.preds name).isSome) :
    NameInv { L with preds := upd L.preds name none, index := upd L.index name none } := by
  obtain ⟨a0, ha0⟩ := Option.isSome_iff_exists.mp hn
  have hidx := (hi.pred _ _).mp ha0
  refine ⟨?_, ?_, ?_, ?_, ?_⟩ <;> intro m
  · by_cases h : m = name
    · subst h; have := hi.sort m; simp [hidx] at this; simp [upd, this]
    · simp [upd, h, hi.sort m]
  · intro a; by_cases h : m = name
    · subst h; simp [upd]
    · simp [upd, h, hi.pred m a]
  · intro a; by_cases h : m = name
    · subst h; have := hi.func m a; simp [hidx] at this; simp [upd, this]
    · simp [upd, h, hi.func m a]
  · intro a; by_cases h : m = name
    · subst h; have := hi.const m a; simp [hidx] at this; simp [upd, this]
    · simp [upd, h, hi.const m a]
  · intro o; by_cases h : m = name
    · subst h; simp [upd]
    · simp [upd, h]; exact hi.name m o

theorem nameInv_remFunc {L : Lang} (hi : NameInv L) {name} (hn : (L.funs name).isSome) :
    NameInv { L with funs := upd L.funs name none, index := upd L.index name none } := by
  obtain ⟨a0, ha0⟩ := Option.isSome_iff_exists.mp hn
  have hidx := (hi.func _ _).mp ha0
  refine ⟨?_, ?_, ?_, ?_, ?_⟩ <;> intro m
  · by_cases h : m = name
    · subst h; have := hi.sort m; simp [hidx] at this; simp [upd, this]
    · simp [upd, h, hi.sort m]
  · intro a; by_cases h : m = name
    · subst h; have := hi.pred m a; simp [hidx] at this; simp [upd, this]
    · simp [upd, h, hi.pred m a]
  · intro a; by_cases h : m = name
    · subst h; simp [upd]
    · simp [upd, h, hi.func m a]
  · intro a; by_cases h : m = name
    · subst h; have := hi.const m a; simp [hidx] at this; simp [upd, this]
    · simp [upd, h, hi.const m a]
  · intro o; by_cases h : m = name
    · subst h; simp [upd]
    · simp [upd, h]; exact hi.name m o

theorem nameInv_attach {n L name i par L' e} (hi : NameInv L) (h : attachSort n L name i par = some (L', e)) :
    NameInv L' := by
  unfold attachSort at h
  split at h
  · cases h; exact hi
  · rename_i hc
    have hn := (checkName_none hc).2
    have h1 := nameInv_addSort hi hn i
    simp only at h
    split at h
    · cases h; exact h1
    · exact nameInv_same (sameNames_setParent h) h1

theorem nameInv_step {n L op L' e} (hi : NameInv L) (h : lstep n L op = some (L', e)) : NameInv L' := by
  cases op with
  | sort name parent =>
    simp only [lstep, declSort] at h
    split at h
    · cases h; exact hi
    · exact nameInv_attach hi h
  | attachBuiltin name parent => simp only [lstep] at h; exact nameInv_attach hi h
  | attachForeign name => simp only [lstep] at h; exact nameInv_attach hi h
  | interval name parent lb ub =>
    simp only [lstep, declInterval] at h
    split at h
    · cases h; exact hi
    · rename_i hc
      have hn := (checkName_none hc).2
      split at h
      · cases h; exact hi
      · split at h
        · cases h; exact hi
        · split at h
          · cases h; exact hi
          · split at h
            · cases h; exact hi
            · exact nameInv_same (sameNames_setParent h) (nameInv_addSort hi hn _)
  | predicate name args =>
    simp only [lstep, declPredicate] at h
    split at h
    · cases h; exact hi
    · rename_i hc
      have hn := (checkName_none hc).2
      split at h
      · cases h; exact hi
      · cases h; exact nameInv_addPred hi hn args
  | function name args =>
    simp only [lstep, declFunction] at h
    split at h
    · cases h; exact hi
    · rename_i hc
      have hn := (checkName_none hc).2
      split at h
      · cases h; exact hi
      · split at h
        · cases h; exact hi
        · cases h; exact nameInv_addFunc hi hn args
  | constant name sort castOk =>
    simp only [lstep, declConstant] at h
    split at h
    · cases h; exact hi
    · split at h
      · cases h; exact hi
      · split at h
        · cases h; exact hi
        · rename_i hc
          have hn := (checkName_none hc).2
          split at h
          · split at h
            · cases h; exact nameInv_addConst hi hn sort
            · cases h; exact hi
          · split at h
            · cases h
            · rename_i dom' _
              cases h
              have : NameInv { L with dom := dom' } := nameInv_same (L := L) ⟨rfl, rfl, rfl, rfl, rfl⟩ hi
              exact nameInv_addConst this hn sort
  | removeSymbol name =>
    simp only [lstep, removeSymbol] at h
    split at h
    · cases h; exact nameInv_remPred hi (by assumption)
    · split at h
      · cases h; exact nameInv_remFunc hi (by assumption)
      · cases h; exact hi
  | setParent s p => exact nameInv_same (sameNames_setParent h) hi
  | isSubtype t s =>
    simp only [lstep, Option.map_eq_some_iff] at h
    obtain ⟨⟨b, L2⟩, h, he⟩ := h
    cases he
    unfold isSubtype at h
    split at h
    · cases h; exact hi
    · split at h
      · cases h; exact hi
      · split at h
        · cases h; exact hi
        · split at h
          · cases h
          · cases h; exact nameInv_same (L := L) ⟨rfl, rfl, rfl, rfl, rfl⟩ hi
          · cases h; exact hi

theorem nameInv_reach {ok L} (h : LReach ok L) : NameInv L := by
  induction h with
  | init => exact nameInv_init
  | step L op n L' e _ _ _ _ hs ih => exact nameInv_step ih hs

/-! ### Hierarchy -/

theorem hasParent_iff {L : Lang} {s} : L.hasParent s = true ↔ ∃ p, L.ParentOf s p := by
  unfold Lang.hasParent Lang.ParentOf
  split
  · rename_i p h; simp [h]
  · rename_i h
    constructor
    · intro h; cases h
    · rintro ⟨p, hp⟩; exact absurd hp (h p)

def Lang.isInterval (L : Lang) (s : String) : Prop := ∃ i, L.sorts s = some i ∧ i.interval = true

theorem isIntervalB_iff {L : Lang} {s} : L.isIntervalB s = true ↔ L.isInterval s := by
  unfold Lang.isIntervalB Lang.isInterval
  split
  · rename_i i h; simp [h]
  · rename_i h; simp [h]

def Lang.HistR (L : Lang) (s p : String) : Prop := (s, p) ∈ L.hist

/-- Invariant relating ancestors, cache, parents and the history of parents. -/
structure HierInv (L : Lang) : Prop where
  reg : ∀ s, (L.sorts s).isSome ↔ (L.parent s).isSome
  parReg : ∀ s p, L.ParentOf s p → (L.sorts p).isSome
  parHist : ∀ s p, L.ParentOf s p → L.HistR s p
  histReg : ∀ s p, L.HistR s p → (L.sorts s).isSome ∧ (L.sorts p).isSome
  histAnc : ∀ s p, L.HistR s p → p ∈ L.anc s
  ancHist : ∀ s u, u ∈ L.anc s → Plus L.HistR s u
  cacheHist : ∀ s u, u ∈ L.cache s → Plus L.HistR s u

theorem hier_init : HierInv Lang.init := by
  refine ⟨?_, ?_, ?_, ?_, ?_, ?_, ?_⟩
  · intro s; by_cases h : s = "object" <;> simp [Lang.init, upd, h]
  · intro s p h; simp only [Lang.ParentOf, Lang.init, upd] at h; split at h <;> cases h
  · intro s p h; simp only [Lang.ParentOf, Lang.init, upd] at h; split at h <;> cases h
  all_goals simp [Lang.init, Lang.HistR]

/-- Effect of a successful or failing `set_parent` on the invariant. -/
theorem hier_setParent {n L s p ow L' e} (hi : HierInv L) (hs : (L.sorts s).isSome) (hp : (L.sorts p).isSome)
    (h : setParent n L s p ow = some (L', e)) :
    HierInv L' ∧ (e = none → L'.ParentOf s p ∧ (∀ x, x ≠ s → L'.parent x = L.parent x) ∧ L'.hist = (s, p) :: L.hist) ∧
    (e ≠ none → L' = L ∧ ow = false ∧ ∃ p', L.ParentOf s p') := by
  unfold setParent at h
  split at h
  · rename_i hc
    cases h
    refine ⟨hi, by simp, fun _ => ⟨rfl, ?_, ?_⟩⟩
    · simp at hc; exact hc.1
    · simp at hc
      exact hasParent_iff.mp hc.2
  · simp only at h
    split at h
    · cases h
    · -- the assertion in `parent` cannot fail
      rename_i e' hcl
      exfalso
      have key : ∀ m q, (L.sorts q).isSome →
          inclusionClosure (upd L.parent s (some (some p))) m q ≠ some (.error e') := by
        intro m
        induction m with
        | zero => intro q _; simp [inclusionClosure]
        | succ m ih =>
          intro q hq
          simp only [inclusionClosure]
          by_cases hqs : q = s
          · subst hqs
            rw [upd_self]
            simp only
            split
            · simp
            · rename_i e2 h2; intro h3; cases h3; exact ih p hp h2
            · simp
          · rw [upd_ne _ _ hqs]
            cases hpar : L.parent q with
            | none =>
              have := (hi.reg q).mp hq
              rw [hpar] at this; simp at this
            | some o =>
              cases o with
              | none => simp
              | some p' =>
                simp only
                have := hi.parReg q p' hpar
                split
                · simp
                · rename_i e2 h2; intro h3; cases h3; exact ih p' this h2
                · simp
      exact key _ _ hp hcl
    · rename_i l hcl
      cases h
      have hl := inclusionClosure_spec _ _ _ _ hcl
      have hR : ∀ a b, (fun a b => upd L.parent s (some (some p)) a = some (some b)) a b →
          (a, b) ∈ ((s, p) :: L.hist) := by
        intro a b hab
        by_cases has : a = s
        · subst has; simp only [upd_self, Option.some.injEq] at hab; subst hab; simp
        · simp only [upd_ne _ _ has] at hab
          exact List.mem_cons_of_mem _ (hi.parHist a b hab)
      have hmono : ∀ a b, L.HistR a b → (a, b) ∈ ((s, p) :: L.hist) := fun a b h => List.mem_cons_of_mem _ h
      refine ⟨⟨?_, ?_, ?_, ?_, ?_, ?_, ?_⟩, ?_, by simp⟩
      · intro x
        by_cases hx : x = s
        · subst hx; simp [upd, hs]
        · simp [upd, hx, hi.reg x]
      · intro a b hab
        by_cases has : a = s
        · subst has; simp only [Lang.ParentOf, upd_self, Option.some.injEq] at hab; subst hab; exact hp
        · simp only [Lang.ParentOf, upd_ne _ _ has] at hab; exact hi.parReg a b hab
      · intro a b hab; exact hR a b hab
      · intro a b hab
        rcases List.mem_cons.mp hab with hab | hab
        · cases hab; exact ⟨hs, hp⟩
        · exact hi.histReg a b hab
      · intro a b hab
        by_cases has : a = s
        · subst has
          simp only [upd_self, foldl_set]
          rcases List.mem_cons.mp hab with hab | hab
          · cases hab; right; rw [hl]; exact .refl _
          · exact Or.inl (hi.histAnc _ _ hab)
        · simp only [upd_ne _ _ has]
          rcases List.mem_cons.mp hab with hab | hab
          · cases hab; exact absurd rfl has
          · exact hi.histAnc _ _ hab
      · intro a u hu
        by_cases has : a = s
        · subst has
          simp only [upd_self, foldl_set] at hu
          rcases hu with hu | hu
          · exact (hi.ancHist a u hu).mono hmono
          · rw [hl] at hu
            exact ⟨p, List.mem_cons_self, hu.mono hR⟩
        · simp only [upd_ne _ _ has] at hu
          exact (hi.ancHist a u hu).mono hmono
      · intro a u hu; simp at hu
      · intro _
        refine ⟨by simp [Lang.ParentOf, upd], fun x hx => by simp [upd, hx], rfl⟩

/-- Invariant of declaration-only histories. -/
structure TreeInv (L : Lang) : Prop where
  hier : HierInv L
  histPar : ∀ s p, L.HistR s p → L.ParentOf s p
  full : ∀ s u, Plus L.ParentOf s u → u ∈ L.anc s
  rank : ∃ r : String → Nat, ∀ s p, L.ParentOf s p → r p < r s

theorem tree_init : TreeInv Lang.init := by
  refine ⟨hier_init, by simp [Lang.HistR, Lang.init], ?_, ⟨fun _ => 0, ?_⟩⟩
  · rintro s u ⟨p, h, _⟩; simp only [Lang.ParentOf, Lang.init, upd] at h; split at h <;> cases h
  · intro s p h; simp only [Lang.ParentOf, Lang.init, upd] at h; split at h <;> cases h

/-- Registering a fresh sort below an existing one. -/
theorem attach_ok {n L name i p L' e} (hi : HierInv L) (hp : (L.sorts p).isSome)
    (hn : L.sorts name = none)
    (h : setParent n { L with sorts := upd L.sorts name (some i), index := upd L.index name (some (.sort name)) } name p false
      = some (L', e)) :
    e = none ∧ HierInv L' ∧ L'.hist = (name, p) :: L.hist ∧ L'.ParentOf name p ∧
      (∀ x, x ≠ name → L'.parent x = L.parent x) ∧ (∀ x, x ≠ name → L'.anc x = L.anc x) ∧
      (∀ x, x ∈ L'.anc name ↔ Star L'.ParentOf p x) ∧ L'.sorts = upd L.sorts name (some i) ∧
      L'.index = upd L.index name (some (.sort name)) ∧
      L'.dom = L.dom ∧ L'.consts = L.consts ∧ L'.preds = L.preds ∧ L'.funs = L.funs := by
  have hpn : p ≠ name := by rintro rfl; rw [hn] at hp; simp at hp
  have hparn : L.parent name = none := by
    have := (hi.reg name)
    rw [hn] at this; simpa using this
  have hancn : L.anc name = [] := by
    rw [List.eq_nil_iff_forall_not_mem]
    intro u hu
    obtain ⟨b, hb, _⟩ := hi.ancHist _ _ hu
    have := (hi.histReg _ _ hb).1
    rw [hn] at this; simp at this
  unfold setParent at h
  have hnp : Lang.hasParent { L with sorts := upd L.sorts name (some i), index := upd L.index name (some (.sort name)) } name = false := by
    simp [Lang.hasParent, hparn]
  rw [hnp] at h
  simp only [Bool.and_false, Bool.false_eq_true, if_false] at h
  split at h
  · cases h
  · rename_i e' hcl
    exfalso
    have key : ∀ m q, (L.sorts q).isSome →
        inclusionClosure (upd L.parent name (some (some p))) m q ≠ some (.error e') := by
      intro m
      induction m with
      | zero => intro q _; simp [inclusionClosure]
      | succ m ih =>
        intro q hq
        simp only [inclusionClosure]
        have hqs : q ≠ name := by rintro rfl; rw [hn] at hq; simp at hq
        rw [upd_ne _ _ hqs]
        cases hpar : L.parent q with
        | none =>
          have := (hi.reg q).mp hq
          rw [hpar] at this; simp at this
        | some o =>
          cases o with
          | none => simp
          | some p' =>
            simp only
            have := hi.parReg q p' hpar
            split
            · simp
            · rename_i e2 h2; intro h3; cases h3; exact ih p' this h2
            · simp
    exact key _ _ hp hcl
  · rename_i l hcl
    cases h
    have hl := inclusionClosure_spec _ _ _ _ hcl
    have hR : ∀ a b, (fun a b => upd L.parent name (some (some p)) a = some (some b)) a b →
        (a, b) ∈ ((name, p) :: L.hist) := by
      intro a b hab
      by_cases has : a = name
      · subst has; simp only [upd_self, Option.some.injEq] at hab; subst hab; simp
      · simp only [upd_ne _ _ has] at hab
        exact List.mem_cons_of_mem _ (hi.parHist a b hab)
    have hmono : ∀ a b, L.HistR a b → (a, b) ∈ ((name, p) :: L.hist) := fun a b h => List.mem_cons_of_mem _ h
    refine ⟨rfl, ⟨?_, ?_, ?_, ?_, ?_, ?_, ?_⟩, rfl, by simp [Lang.ParentOf, upd], fun x hx => by simp [upd, hx],
      fun x hx => by simp [upd, hx], ?_, rfl, rfl, rfl, rfl, rfl, rfl⟩
    · intro x
      by_cases hx : x = name
      · subst hx; simp [upd]
      · simp [upd, hx, hi.reg x]
    · intro a b hab
      have hb : b ≠ name → (L.sorts b).isSome → (upd L.sorts name (some i) b).isSome := by
        intro h1 h2; rw [upd_ne _ _ h1]; exact h2
      by_cases has : a = name
      · subst has; simp only [Lang.ParentOf, upd_self, Option.some.injEq] at hab; subst hab; exact hb hpn hp
      · simp only [Lang.ParentOf, upd_ne _ _ has] at hab
        have h1 := hi.parReg a b hab
        refine hb ?_ h1
        rintro rfl; rw [hn] at h1; simp at h1
    · intro a b hab; exact hR a b hab
    · intro a b hab
      have hreg : ∀ x, (L.sorts x).isSome → (upd L.sorts name (some i) x).isSome := by
        intro x hx
        by_cases h : x = name
        · subst h; simp [upd]
        · rw [upd_ne _ _ h]; exact hx
      rcases List.mem_cons.mp hab with hab | hab
      · cases hab; exact ⟨by simp [upd], hreg _ hp⟩
      · exact ⟨hreg _ (hi.histReg a b hab).1, hreg _ (hi.histReg a b hab).2⟩
    · intro a b hab
      by_cases has : a = name
      · subst has
        simp only [upd_self, foldl_set]
        rcases List.mem_cons.mp hab with hab | hab
        · cases hab; right; rw [hl]; exact .refl _
        · exact Or.inl (hi.histAnc _ _ hab)
      · simp only [upd_ne _ _ has]
        rcases List.mem_cons.mp hab with hab | hab
        · cases hab; exact absurd rfl has
        · exact hi.histAnc _ _ hab
    · intro a u hu
      by_cases has : a = name
      · subst has
        simp only [upd_self, foldl_set] at hu
        rcases hu with hu | hu
        · exact (hi.ancHist a u hu).mono hmono
        · rw [hl] at hu
          exact ⟨p, List.mem_cons_self, hu.mono hR⟩
      · simp only [upd_ne _ _ has] at hu
        exact (hi.ancHist a u hu).mono hmono
    · intro a u hu; simp at hu
    · intro x
      simp only [upd_self, foldl_set, hancn, List.not_mem_nil, false_or]
      exact hl x

theorem star_old {L L' : Lang} {name : String} (hi : HierInv L) (hn : L.sorts name = none)
    (hpar : ∀ x, x ≠ name → L'.parent x = L.parent x) {a b} (ha : a ≠ name) :
    Star L'.ParentOf a b ↔ Star L.ParentOf a b := by
  have hreg : ∀ x y, L.ParentOf x y → y ≠ name := by
    intro x y h; rintro rfl
    have := hi.parReg x y h; rw [hn] at this; simp at this
  constructor
  · intro h
    induction h with
    | refl => exact .refl _
    | step a b c h1 _ ih =>
      have h1' : L.ParentOf a b := by unfold Lang.ParentOf; rw [← hpar a ha]; exact h1
      exact .step _ _ _ h1' (ih (hreg _ _ h1'))
  · intro h
    induction h with
    | refl => exact .refl _
    | step a b c h1 _ ih =>
      exact .step _ b _ (by unfold Lang.ParentOf; rw [hpar a ha]; exact h1) (ih (hreg _ _ h1))

theorem tree_attach {n L name i p L' e} (hi : TreeInv L) (hp : (L.sorts p).isSome)
    (hn : L.sorts name = none)
    (h : setParent n { L with sorts := upd L.sorts name (some i), index := upd L.index name (some (.sort name)) } name p false
      = some (L', e)) : TreeInv L' := by
  obtain ⟨_, hh, hhist, hpo, hpar, hanc, hancn, _⟩ := attach_ok hi.hier hp hn h
  have hpn : p ≠ name := by rintro rfl; rw [hn] at hp; simp at hp
  refine ⟨hh, ?_, ?_, ?_⟩
  · intro s q hsq
    unfold Lang.HistR at hsq
    rw [hhist] at hsq
    rcases List.mem_cons.mp hsq with hsq' | hsq'
    · cases hsq'; exact hpo
    · have h1 := hi.histPar s q hsq'
      have hne : s ≠ name := by
        rintro rfl
        have := (hi.hier.histReg _ _ hsq').1
        rw [hn] at this; simp at this
      unfold Lang.ParentOf; rw [hpar s hne]; exact h1
  · intro s u hu
    by_cases hs : s = name
    · subst hs
      obtain ⟨b, h1, h2⟩ := hu
      have : b = p := by
        unfold Lang.ParentOf at h1 hpo
        rw [hpo] at h1; cases h1; rfl
      subst this
      exact (hancn u).mpr h2
    · rw [hanc s hs]
      apply hi.full
      obtain ⟨b, h1, h2⟩ := hu
      have h1' : L.ParentOf s b := by unfold Lang.ParentOf; rw [← hpar s hs]; exact h1
      have hb : b ≠ name := by
        rintro rfl
        have := hi.hier.parReg _ _ h1'
        rw [hn] at this; simp at this
      exact ⟨b, h1', (star_old hi.hier hn hpar hb).mp h2⟩
  · obtain ⟨r, hr⟩ := hi.rank
    refine ⟨upd r name (r p + 1), ?_⟩
    intro s q hsq
    by_cases hs : s = name
    · subst hs
      have : q = p := by
        unfold Lang.ParentOf at hsq hpo
        rw [hpo] at hsq; cases hsq; rfl
      subst this
      rw [upd_self, upd_ne _ _ hpn]; omega
    · have hsq' : L.ParentOf s q := by unfold Lang.ParentOf; rw [← hpar s hs]; exact hsq
      have hq : q ≠ name := by
        rintro rfl
        have := hi.hier.parReg _ _ hsq'
        rw [hn] at this; simp at this
      rw [upd_ne _ _ hs, upd_ne _ _ hq]
      exact hr s q hsq'

/-! ### `connected_in_type_hierarchy` -/

def Lang.AncR (L : Lang) (s p : String) : Prop := p ∈ L.anc s

theorem connLoop_true {L : Lang} {goal n opn} (h : connLoop L goal n opn = some true) :
    ∃ o ∈ opn, Star L.AncR o goal := by
  induction n generalizing opn with
  | zero => cases opn <;> simp [connLoop] at h
  | succ n ih =>
    cases opn with
    | nil => simp [connLoop] at h
    | cons t opn =>
      simp only [connLoop] at h
      split at h
      · subst t; exact ⟨goal, by simp, .refl _⟩
      · obtain ⟨o, ho, hs⟩ := ih h
        rw [foldl_set] at ho
        rcases ho with ho | ho
        · exact ⟨o, by simp [ho], hs⟩
        · exact ⟨t, by simp, .step _ _ _ ho hs⟩

theorem connLoop_false {L : Lang} {goal n opn} (h : connLoop L goal n opn = some false) :
    ∀ o ∈ opn, ¬ Star L.AncR o goal := by
  induction n generalizing opn with
  | zero => cases opn <;> simp [connLoop] at h ⊢
  | succ n ih =>
    cases opn with
    | nil => simp
    | cons t opn =>
      simp only [connLoop] at h
      split at h
      · cases h
      · rename_i hne
        have := ih h
        intro o ho hs
        rcases List.mem_cons.mp ho with rfl | ho
        · cases hs with
          | refl => exact hne rfl
          | step _ b _ h1 h2 => exact this b ((foldl_set _ _ _).mpr (Or.inr h1)) h2
        · exact this o ((foldl_set _ _ _).mpr (Or.inl ho)) hs

theorem connLoop_terminates {L : Lang} (r : String → Nat) (N : Nat)
    (hr : ∀ s p, p ∈ L.anc s → r p < r s) (hN : ∀ s, (L.anc s).length ≤ N) (goal : String) :
    ∀ m opn, (opn.map (fun o => (N + 1) ^ r o)).sum ≤ m → ∃ b, connLoop L goal m opn = some b := by
  intro m
  induction m with
  | zero =>
    intro opn h
    cases opn with
    | nil => exact ⟨false, by simp [connLoop]⟩
    | cons t opn =>
      have : 0 < (N + 1) ^ r t := Nat.pow_pos (by omega)
      simp only [List.map_cons, List.sum_cons] at h
      omega
  | succ m ih =>
    intro opn h
    cases opn with
    | nil => exact ⟨false, by simp [connLoop]⟩
    | cons t opn =>
      simp only [connLoop]
      split
      · exact ⟨true, rfl⟩
      · apply ih
        simp only [List.map_cons, List.sum_cons] at h
        have key : ∀ (l opn : List String) (k : Nat), (∀ p ∈ l, (N + 1) ^ r p ≤ k) →
            ((l.foldl (fun o t2 => if t2 ∈ o then o else t2 :: o) opn).map (fun o => (N + 1) ^ r o)).sum
              ≤ (opn.map (fun o => (N + 1) ^ r o)).sum + l.length * k := by
          intro l
          induction l with
          | nil => intro opn k _; simp
          | cons a l ihl =>
            intro opn k hk
            simp only [List.foldl_cons, List.length_cons]
            refine Nat.le_trans (ihl _ k (fun p hp => hk p (by simp [hp]))) ?_
            have := hk a (by simp)
            have e : (l.length + 1) * k = l.length * k + k := by rw [Nat.add_mul]; omega
            split
            · omega
            · simp only [List.map_cons, List.sum_cons]; omega
        have hbound : ∀ (l : List String), l.length ≤ N → (∀ p ∈ l, r p < r t) →
            ((l.foldl (fun o t2 => if t2 ∈ o then o else t2 :: o) opn).map (fun o => (N + 1) ^ r o)).sum ≤ m := by
          intro l hl hlr
          cases hrt : r t with
          | zero =>
            have : l = [] := by
              rw [List.eq_nil_iff_forall_not_mem]
              intro p hp; have := hlr p hp; omega
            subst this
            rw [hrt] at h
            simp at h ⊢
            omega
          | succ k =>
            refine Nat.le_trans (key l opn ((N + 1) ^ k) ?_) ?_
            · intro p hp
              have := hlr p hp
              exact Nat.pow_le_pow_right (by omega) (by omega)
            · rw [hrt] at h
              have h1 : l.length * (N + 1) ^ k ≤ N * (N + 1) ^ k := Nat.mul_le_mul_right _ hl
              have h2 : (N + 1) ^ (k + 1) = N * (N + 1) ^ k + (N + 1) ^ k := by
                rw [Nat.pow_succ, Nat.mul_comm, Nat.add_mul, Nat.one_mul]
              have h3 : 0 < (N + 1) ^ k := Nat.pow_pos (by omega)
              omega
        exact hbound _ (hN t) (fun p hp => hr t p hp)

theorem ancR_star_hist {L : Lang} (hi : HierInv L) {a b} : Star L.AncR a b ↔ Star L.HistR a b := by
  constructor
  · intro h
    induction h with
    | refl => exact .refl _
    | step a b c h1 _ ih => exact (hi.ancHist _ _ h1).star.trans ih
  · exact Star.mono (fun a b h => hi.histAnc a b h)

theorem isSubtype_spec {L : Lang} (hi : HierInv L) {n t s b L'} (h : isSubtype n L t s = some (b, L')) :
    (b = true ↔ Star L.HistR t s) := by
  unfold isSubtype at h
  split at h
  · cases h; subst t; simp; exact .refl _
  · rename_i hts
    split at h
    · cases h; simp; exact (hi.ancHist _ _ (by assumption)).star
    · split at h
      · cases h; simp; exact (hi.cacheHist _ _ (by assumption)).star
      · split at h
        · cases h
        · rename_i hc
          cases h
          simp only [true_iff]
          obtain ⟨o, ho, hs⟩ := connLoop_true hc
          exact (ancR_star_hist hi).mp (.step _ _ _ ho hs)
        · rename_i hc
          cases h
          simp only [Bool.false_eq_true, false_iff]
          intro hs
          rw [← ancR_star_hist hi] at hs
          cases hs with
          | refl => exact hts rfl
          | step _ b _ h1 h2 => exact connLoop_false hc b h1 h2

theorem hier_isSubtype {L : Lang} (hi : HierInv L) {n t s b L'} (h : isSubtype n L t s = some (b, L')) :
    HierInv L' ∧ L'.parent = L.parent ∧ L'.hist = L.hist ∧ L'.anc = L.anc ∧ L'.sorts = L.sorts ∧ L'.dom = L.dom
      ∧ L'.consts = L.consts ∧ L'.index = L.index := by
  have hsp := isSubtype_spec hi h
  unfold isSubtype at h
  split at h
  · cases h; exact ⟨hi, rfl, rfl, rfl, rfl, rfl, rfl, rfl⟩
  · rename_i hne
    split at h
    · cases h; exact ⟨hi, rfl, rfl, rfl, rfl, rfl, rfl, rfl⟩
    · split at h
      · cases h; exact ⟨hi, rfl, rfl, rfl, rfl, rfl, rfl, rfl⟩
      · split at h
        · cases h
        · rename_i hc
          cases h
          refine ⟨⟨hi.reg, hi.parReg, hi.parHist, hi.histReg, hi.histAnc, hi.ancHist, ?_⟩, rfl, rfl, rfl, rfl, rfl, rfl, rfl⟩
          intro a u hu
          by_cases ha : a = t
          · subst ha
            simp only [upd_self] at hu
            rcases List.mem_cons.mp hu with rfl | hu
            · rcases star_iff_plus.mp (hsp.mp rfl) with h | h
              · exact absurd h hne
              · exact h
            · exact hi.cacheHist _ _ hu
          · simp only [upd_ne _ _ ha] at hu
            exact hi.cacheHist _ _ hu
        · cases h; exact ⟨hi, rfl, rfl, rfl, rfl, rfl, rfl, rfl⟩

/-! ### Domains -/

/-- Reachability along ancestors through non-interval sorts. -/
inductive NIReach (L : Lang) : String → String → Prop where
  | refl a : NIReach L a a
  | step a b c : ¬ L.isInterval a → b ∈ L.anc a → NIReach L b c → NIReach L a c

theorem mem_addDom {dom : String → List String} {s c x d} :
    d ∈ addDom dom s c x ↔ d ∈ dom x ∨ (d = c ∧ x = s) := by
  unfold addDom
  by_cases hx : x = s
  · subst hx
    rw [upd_self]
    split
    · constructor
      · exact Or.inl
      · rintro (h | ⟨rfl, _⟩) <;> assumption
    · simp [or_comm]
  · rw [upd_ne _ _ hx]; simp [hx]

theorem extendList_spec (L : Lang) (c : String) (f : (String → List String) → String → Option (String → List String))
    (hf : ∀ dom s dom', f dom s = some dom' →
      ∀ x d, d ∈ dom' x ↔ d ∈ dom x ∨ (d = c ∧ ¬ L.isInterval x ∧ NIReach L s x)) (ps : List String) :
    ∀ dom dom', extendList f dom ps = some dom' →
    ∀ x d, d ∈ dom' x ↔ d ∈ dom x ∨ (d = c ∧ ¬ L.isInterval x ∧ ∃ p ∈ ps, NIReach L p x) := by
  induction ps with
  | nil => intro dom dom' h; simp [extendList] at h; subst h; simp
  | cons p ps ih =>
    intro dom dom' h
    simp only [extendList] at h
    split at h
    · cases h
    · rename_i dom1 h1
      have i1 := hf dom p dom1 h1
      have i2 := ih dom1 dom' h
      intro x d
      rw [i2, i1]
      simp only [List.mem_cons, exists_eq_or_imp]
      tauto

theorem extend_spec (L : Lang) (n : Nat) : ∀ (dom : String → List String) (s c) (dom'),
    extend L n dom s c = some dom' →
    ∀ x d, d ∈ dom' x ↔ d ∈ dom x ∨ (d = c ∧ ¬ L.isInterval x ∧ NIReach L s x) := by
  induction n with
  | zero => intro dom s c dom' h; simp [extend] at h
  | succ n ihn =>
    intro dom s c dom' h
    simp only [extend] at h
    by_cases hiv : L.isInterval s
    · have : L.isIntervalB s = true := isIntervalB_iff.mpr hiv
      rw [if_pos this] at h
      cases h
      intro x d
      constructor
      · exact Or.inl
      · rintro (h | ⟨_, h1, h2⟩)
        · exact h
        · cases h2 with
          | refl => exact absurd hiv h1
          | step _ _ _ h3 _ _ => exact absurd hiv h3
    · have : ¬ L.isIntervalB s = true := fun h => hiv (isIntervalB_iff.mp h)
      rw [if_neg this] at h
      have ih := extendList_spec L c _ (fun dom s dom' h => ihn dom s c dom' h) _ _ _ h
      intro x d
      rw [ih x d, mem_addDom]
      constructor
      · rintro ((h | ⟨rfl, rfl⟩) | ⟨h1, h2, p, hp, h3⟩)
        · exact Or.inl h
        · exact Or.inr ⟨rfl, hiv, .refl _⟩
        · exact Or.inr ⟨h1, h2, .step _ _ _ hiv hp h3⟩
      · rintro (h | ⟨h1, h2, h3⟩)
        · exact Or.inl (Or.inl h)
        · cases h3 with
          | refl => exact Or.inl (Or.inr ⟨h1, rfl⟩)
          | step _ b _ _ hb h4 => exact Or.inr ⟨h1, h2, b, hb, h4⟩
theorem extend_terminates {L : Lang} (r : String → Nat) (hr : ∀ s p, p ∈ L.anc s → r p < r s) :
    ∀ n dom s c, r s < n → ∃ dom', extend L n dom s c = some dom' := by
  intro n
  induction n with
  | zero => intro dom s c h; omega
  | succ n ih =>
    intro dom s c h
    simp only [extend]
    split
    · exact ⟨_, rfl⟩
    · have : ∀ ps dom, (∀ p ∈ ps, r p < n) → ∃ dom', extendList (fun d p => extend L n d p c) dom ps = some dom' := by
        intro ps
        induction ps with
        | nil => intro dom _; exact ⟨_, by simp [extendList]; rfl⟩
        | cons p ps ihp =>
          intro dom hp
          obtain ⟨d1, h1⟩ := ih dom p c (hp p (by simp))
          obtain ⟨d2, h2⟩ := ihp d1 (fun q hq => hp q (by simp [hq]))
          exact ⟨d2, by simp [extendList, h1, h2]⟩
      exact this _ _ (fun p hp => by have := hr s p hp; omega)

theorem niReach_tree {L : Lang} (hi : TreeInv L) {s x} (hs : ¬ L.isInterval s) :
    NIReach L s x ↔ Star L.ParentOf s x := by
  have hh : ∀ a b, L.HistR a b → L.ParentOf a b := hi.histPar
  constructor
  · intro h
    clear hs
    induction h with
    | refl => exact .refl _
    | step a b c _ hb _ ih => exact ((hi.hier.ancHist a b hb).mono hh).star.trans ih
  · intro h
    rcases star_iff_plus.mp h with rfl | h
    · exact .refl _
    · exact .step _ _ _ hs (hi.full _ _ h) (.refl _)

/-- Domains contain exactly the constants of subsorts. -/
structure DomInv (L : Lang) : Prop where
  tree : TreeInv L
  constReg : ∀ c s, L.consts c = some s → (L.sorts s).isSome
  dom : ∀ c x, c ∈ L.dom x ↔ ∃ s, L.consts c = some s ∧ ¬ L.isInterval s ∧ ¬ L.isInterval x ∧ Star L.ParentOf s x

theorem domInv_init : DomInv Lang.init :=
  ⟨tree_init, by simp [Lang.init], by simp [Lang.init]⟩

theorem domInv_attach {n L name i p L' e} (hi : DomInv L) (hp : (L.sorts p).isSome)
    (hn : L.sorts name = none)
    (h : setParent n { L with sorts := upd L.sorts name (some i), index := upd L.index name (some (.sort name)) } name p false
      = some (L', e)) : DomInv L' := by
  obtain ⟨_, hh, hhist, hpo, hpar, hanc, hancn, hso, _, hdom, hco, _⟩ := attach_ok hi.tree.hier hp hn h
  have hreg : ∀ x, (L.sorts x).isSome → (L'.sorts x).isSome := by
    intro x hx
    rw [hso]
    by_cases h : x = name
    · subst h; simp [upd]
    · rw [upd_ne _ _ h]; exact hx
  refine ⟨tree_attach hi.tree hp hn h, ?_, ?_⟩
  · intro c s hc; rw [hco] at hc; exact hreg s (hi.constReg c s hc)
  · intro c x
    rw [hdom, hi.dom c x, hco]
    have hiv : ∀ y, y ≠ name → (L'.isInterval y ↔ L.isInterval y) := by
      intro y hy; unfold Lang.isInterval; rw [hso, upd_ne _ _ hy]
    have hxn : ∀ s, s ≠ name → Star L.ParentOf s x → x ≠ name := by
      intro s hs hst
      rcases star_iff_plus.mp hst with rfl | ⟨b, h1, h2⟩
      · exact hs
      · have key : ∀ a y, Star L.ParentOf a y → (L.sorts a).isSome → (L.sorts y).isSome := by
          clear h1 h2 hst
          intro a y ha
          induction ha with
          | refl => exact id
          | step a b c h1 _ ih => exact fun _ => ih (hi.tree.hier.parReg _ _ h1)
        rintro rfl
        have := key b _ h2 (hi.tree.hier.parReg _ _ h1)
        rw [hn] at this; simp at this
    constructor
    · rintro ⟨s, h1, h2, h3, h4⟩
      have hs : s ≠ name := by rintro rfl; have := hi.constReg _ _ h1; rw [hn] at this; simp at this
      have hx := hxn s hs h4
      exact ⟨s, h1, by rw [hiv s hs]; exact h2, by rw [hiv x hx]; exact h3, (star_old hi.tree.hier hn hpar hs).mpr h4⟩
    · rintro ⟨s, h1, h2, h3, h4⟩
      have hs : s ≠ name := by rintro rfl; have := hi.constReg _ _ h1; rw [hn] at this; simp at this
      have h4' := (star_old hi.tree.hier hn hpar hs).mp h4
      have hx := hxn s hs h4'
      exact ⟨s, h1, by rw [← hiv s hs]; exact h2, by rw [← hiv x hx]; exact h3, h4'⟩

/-- Same hierarchy and domains. -/
theorem domInv_same {L L' : Lang} (hi : DomInv L) (h1 : L'.sorts = L.sorts) (h2 : L'.parent = L.parent)
    (h3 : L'.anc = L.anc) (h4 : L'.hist = L.hist) (h5 : L'.dom = L.dom) (h6 : L'.consts = L.consts)
    (h7 : ∀ s u, u ∈ L'.cache s → Plus L.HistR s u) : DomInv L' := by
  obtain ⟨⟨⟨a1, a2, a3, a4, a5, a6, a7⟩, b1, b2, b3⟩, c1, c2⟩ := hi
  refine ⟨⟨⟨?_, ?_, ?_, ?_, ?_, ?_, ?_⟩, ?_, ?_, ?_⟩, ?_, ?_⟩
  · rw [h1, h2]; exact a1
  · unfold Lang.ParentOf; rw [h1, h2]; exact a2
  · unfold Lang.ParentOf Lang.HistR; rw [h2, h4]; exact a3
  · unfold Lang.HistR; rw [h1, h4]; exact a4
  · unfold Lang.HistR; rw [h3, h4]; exact a5
  · intro s u; unfold Lang.HistR; rw [h3, h4]; exact a6 s u
  · intro s u hu; have := h7 s u hu; unfold Lang.HistR at this ⊢; rw [h4]; exact this
  · unfold Lang.ParentOf Lang.HistR; rw [h2, h4]; exact b1
  · intro s u; unfold Lang.ParentOf; rw [h2, h3]; exact b2 s u
  · unfold Lang.ParentOf; rw [h2]; exact b3
  · rw [h1, h6]; exact c1
  · intro c x
    have := c2 c x
    unfold Lang.isInterval Lang.ParentOf at this ⊢
    rw [h1, h2, h5, h6]; exact this

theorem domInv_constant {L : Lang} (hi : DomInv L) {n name sort dom'} {i : SortInfo}
    (hs : L.sorts sort = some i) (hiv : i.interval = false) (hn : L.consts name = none)
    (hdom : extend L n L.dom sort name = some dom') :
    DomInv { L with dom := dom', consts := upd L.consts name (some sort), index := upd L.index name (some (.const name sort)) } := by
  have hsp := extend_spec L n L.dom sort name dom' hdom
  have hns : ¬ L.isInterval sort := by
    rintro ⟨j, h1, h2⟩; rw [hs] at h1; cases h1; rw [hiv] at h2; cases h2
  obtain ⟨ht, c1, c2⟩ := hi
  have ht' : TreeInv { L with dom := dom', consts := upd L.consts name (some sort), index := upd L.index name (some (.const name sort)) } := by
    obtain ⟨⟨a1, a2, a3, a4, a5, a6, a7⟩, b1, b2, b3⟩ := ht
    exact ⟨⟨a1, a2, a3, a4, a5, a6, a7⟩, b1, b2, b3⟩
  refine ⟨ht', ?_, ?_⟩
  · intro c s hc
    by_cases h : c = name
    · subst h; simp only [upd_self, Option.some.injEq] at hc; subst hc; simp [hs]
    · simp only [upd_ne _ _ h] at hc; exact c1 c s hc
  · intro c x
    simp only
    rw [hsp x c, niReach_tree ht hns]
    by_cases h : c = name
    · subst h
      have : c ∉ L.dom x := by
        rw [c2]; rintro ⟨s, h1, _⟩; rw [hn] at h1; cases h1
      simp only [this, false_or, true_and, upd_self, Option.some.injEq, exists_eq_left']
      constructor
      · rintro ⟨h1, h2⟩; exact ⟨hns, h1, h2⟩
      · rintro ⟨_, h1, h2⟩; exact ⟨h1, h2⟩
    · simp only [h, false_and, or_false, upd_ne _ _ h]
      exact c2 c x

theorem domInv_step {n L op L' e} (hi : DomInv L) (hni : NameInv L) (hp : op.plain)
    (hb : ∀ s p, op = .attachBuiltin s p → (L.sorts p).isSome)
    (h : lstep n L op = some (L', e)) : DomInv L' := by
  have hidx : ∀ name, L.index name = none → L.sorts name = none ∧ L.consts name = none := by
    intro name hn
    constructor
    · have := hni.sort name; rw [hn] at this; simpa using this
    · cases hc : L.consts name with
      | none => rfl
      | some s => have := (hni.const name s).mp hc; rw [hn] at this; cases this
  cases op with
  | sort name parent =>
    simp only [lstep, declSort] at h
    split at h
    · cases h; exact hi
    · rename_i i hs
      unfold attachSort at h
      split at h
      · cases h; exact hi
      · rename_i hc
        exact domInv_attach hi (by simp [hs]) (hidx _ (checkName_none hc).2).1 h
  | attachBuiltin name parent =>
    simp only [lstep, attachSort] at h
    split at h
    · cases h; exact hi
    · rename_i hc
      exact domInv_attach hi (hb _ _ rfl) (hidx _ (checkName_none hc).2).1 h
  | attachForeign name => exact absurd hp (by simp [LOp.plain])
  | interval name parent lb ub =>
    simp only [lstep, declInterval] at h
    split at h
    · cases h; exact hi
    · rename_i hc
      split at h
      · cases h; exact hi
      · rename_i hpar
        split at h
        · cases h; exact hi
        · split at h
          · cases h; exact hi
          · split at h
            · cases h; exact hi
            · refine domInv_attach hi ?_ (hidx _ (checkName_none hc).2).1 h
              cases hx : L.sorts parent with
              | none => rw [hx] at hpar; simp at hpar
              | some _ => simp
  | predicate name args =>
    simp only [lstep, declPredicate] at h
    split at h
    · cases h; exact hi
    · split at h
      · cases h; exact hi
      · cases h; exact domInv_same hi rfl rfl rfl rfl rfl rfl hi.tree.hier.cacheHist
  | function name args =>
    simp only [lstep, declFunction] at h
    split at h
    · cases h; exact hi
    · split at h
      · cases h; exact hi
      · split at h
        · cases h; exact hi
        · cases h; exact domInv_same hi rfl rfl rfl rfl rfl rfl hi.tree.hier.cacheHist
  | constant name sort castOk =>
    simp only [lstep, declConstant] at h
    split at h
    · cases h; exact hi
    · rename_i i hs
      split at h
      · cases h; exact hi
      · split at h
        · cases h; exact hi
        · rename_i hc
          have hn := hidx _ (checkName_none hc).2
          split at h
          · rename_i hiv
            split at h
            · cases h
              obtain ⟨ht, c1, c2⟩ := hi
              obtain ⟨⟨a1, a2, a3, a4, a5, a6, a7⟩, b1, b2, b3⟩ := ht
              refine ⟨⟨⟨a1, a2, a3, a4, a5, a6, a7⟩, b1, b2, b3⟩, ?_, ?_⟩
              · intro c s hc'
                by_cases h : c = name
                · subst h; simp only [upd_self, Option.some.injEq] at hc'; subst hc'; simp [hs]
                · simp only [upd_ne _ _ h] at hc'; exact c1 c s hc'
              · intro c x
                simp only
                rw [c2 c x]
                by_cases h : c = name
                · subst h
                  simp only [upd_self, hn.2, Option.some.injEq, exists_eq_left']
                  constructor
                  · rintro ⟨s, h, _⟩; cases h
                  · rintro ⟨h, _⟩; exact absurd ⟨i, hs, hiv⟩ h
                · simp only [upd_ne _ _ h]; rfl
            · cases h; exact hi
          · rename_i hiv
            split at h
            · cases h
            · rename_i dom' hd
              cases h
              exact domInv_constant hi hs (by simpa using hiv) hn.2 hd
  | removeSymbol name =>
    simp only [lstep, removeSymbol] at h
    split at h
    · cases h; exact domInv_same hi rfl rfl rfl rfl rfl rfl hi.tree.hier.cacheHist
    · split at h
      · cases h; exact domInv_same hi rfl rfl rfl rfl rfl rfl hi.tree.hier.cacheHist
      · cases h; exact hi
  | setParent s p => exact absurd hp (by simp [LOp.plain])
  | isSubtype t s =>
    simp only [lstep, Option.map_eq_some_iff] at h
    obtain ⟨⟨b, L2⟩, h, he⟩ := h
    cases he
    obtain ⟨h1, h2, h3, h4, h5, h6, h7, h8⟩ := hier_isSubtype hi.tree.hier h
    refine domInv_same hi h5 h2 h4 h3 h6 h7 ?_
    intro s u hu
    have := h1.cacheHist s u hu
    unfold Lang.HistR at this ⊢
    rw [h3] at this; exact this

theorem domInv_reach {L} (h : LReach LOp.plain L) : DomInv L := by
  induction h with
  | init => exact domInv_init
  | step L op n L' e hr hp _ hb hs ih => exact domInv_step ih (nameInv_reach hr) hp hb hs

/-- The hierarchy invariant for histories with re-parenting. -/
theorem hier_step {n L op L' e} (hi : HierInv L) (hni : NameInv L) (hp : op.noForeign)
    (hset : ∀ s p, op = .setParent s p → (L.sorts s).isSome ∧ (L.sorts p).isSome)
    (hb : ∀ s p, op = .attachBuiltin s p → (L.sorts p).isSome)
    (h : lstep n L op = some (L', e)) : HierInv L' := by
  have hidx : ∀ name, L.index name = none → L.sorts name = none := by
    intro name hn
    have := hni.sort name; rw [hn] at this; simpa using this
  have same : ∀ L' : Lang, L'.sorts = L.sorts → L'.parent = L.parent → L'.anc = L.anc → L'.hist = L.hist →
      L'.cache = L.cache → HierInv L' := by
    intro L' h1 h2 h3 h4 h5
    obtain ⟨a1, a2, a3, a4, a5, a6, a7⟩ := hi
    refine ⟨?_, ?_, ?_, ?_, ?_, ?_, ?_⟩
    · rw [h1, h2]; exact a1
    · unfold Lang.ParentOf; rw [h1, h2]; exact a2
    · unfold Lang.ParentOf Lang.HistR; rw [h2, h4]; exact a3
    · unfold Lang.HistR; rw [h1, h4]; exact a4
    · unfold Lang.HistR; rw [h3, h4]; exact a5
    · intro s u; unfold Lang.HistR; rw [h3, h4]; exact a6 s u
    · intro s u; unfold Lang.HistR; rw [h4, h5]; exact a7 s u
  cases op with
  | sort name parent =>
    simp only [lstep, declSort] at h
    split at h
    · cases h; exact hi
    · rename_i i hs
      unfold attachSort at h
      split at h
      · cases h; exact hi
      · rename_i hc
        exact (attach_ok hi (by simp [hs]) (hidx _ (checkName_none hc).2) h).2.1
  | attachBuiltin name parent =>
    simp only [lstep, attachSort] at h
    split at h
    · cases h; exact hi
    · rename_i hc
      exact (attach_ok hi (hb _ _ rfl) (hidx _ (checkName_none hc).2) h).2.1
  | attachForeign name => exact absurd hp (by simp [LOp.noForeign])
  | interval name parent lb ub =>
    simp only [lstep, declInterval] at h
    split at h
    · cases h; exact hi
    · rename_i hc
      split at h
      · cases h; exact hi
      · rename_i hpar
        split at h
        · cases h; exact hi
        · split at h
          · cases h; exact hi
          · split at h
            · cases h; exact hi
            · refine (attach_ok hi ?_ (hidx _ (checkName_none hc).2) h).2.1
              cases hx : L.sorts parent with
              | none => rw [hx] at hpar; simp at hpar
              | some _ => simp
  | predicate name args =>
    simp only [lstep, declPredicate] at h
    split at h
    · cases h; exact hi
    · split at h
      · cases h; exact hi
      · cases h; exact same _ rfl rfl rfl rfl rfl
  | function name args =>
    simp only [lstep, declFunction] at h
    split at h
    · cases h; exact hi
    · split at h
      · cases h; exact hi
      · split at h
        · cases h; exact hi
        · cases h; exact same _ rfl rfl rfl rfl rfl
  | constant name sort castOk =>
    simp only [lstep, declConstant] at h
    split at h
    · cases h; exact hi
    · split at h
      · cases h; exact hi
      · split at h
        · cases h; exact hi
        · split at h
          · split at h
            · cases h; exact same _ rfl rfl rfl rfl rfl
            · cases h; exact hi
          · split at h
            · cases h
            · cases h; exact same _ rfl rfl rfl rfl rfl
  | removeSymbol name =>
    simp only [lstep, removeSymbol] at h
    split at h
    · cases h; exact same _ rfl rfl rfl rfl rfl
    · split at h
      · cases h; exact same _ rfl rfl rfl rfl rfl
      · cases h; exact hi
  | setParent s p => exact (hier_setParent hi (hset s p rfl).1 (hset s p rfl).2 h).1
  | isSubtype t s =>
    simp only [lstep, Option.map_eq_some_iff] at h
    obtain ⟨⟨b, L2⟩, h, he⟩ := h
    cases he
    exact (hier_isSubtype hi h).1

theorem hier_reach {L} (h : LReach LOp.noForeign L) : HierInv L := by
  induction h with
  | init => exact hier_init
  | step L op n L' e hr hp hset hb hs ih => exact hier_step ih (nameInv_reach hr) hp hset hb hs

end Tarski

import Verif.TermFluency
import Verif.FreeVarsLemmas
import Verif.Semantics
import Mathlib.Tactic.Common
import Mathlib.Data.List.Nodup
import Mathlib.Data.List.Perm.Subperm
/-! C68: the classification of terms into fluent and static ones. -/
namespace Tarski

/-! ### Specification -/

mutual
/-- `x` is an application of a symbol of the user that occurs in the term (outside of if-then-else terms). -/
def UserT (x : TRef) : Term → Prop
  | .app f ts => (fnBuiltin f = false ∧ x = .term f ts) ∨ UserTs x ts
  | _ => False
termination_by structural t => t
def UserTs (x : TRef) : List Term → Prop
  | [] => False
  | t :: ts => UserT x t ∨ UserTs x ts
termination_by structural ts => ts
end

mutual
/-- `x` is an atom or application of a symbol of the user that occurs in the constraint. -/
def UserL (x : TRef) : LForm → Prop
  | .atom p ts => (p.builtin = false ∧ x = .atom p ts) ∨ UserTs x ts
  | .comp _ fs => UserLs x fs
  | .quant _ _ f => UserL x f
  | _ => False
termination_by structural f => f
def UserLs (x : TRef) : List LForm → Prop
  | [] => False
  | f :: fs => UserL x f ∨ UserLs x fs
termination_by structural fs => fs
end

mutual
/-- `x` occurs in the constraint in the scope of a `next` operator. -/
def NextL (x : TRef) : LForm → Prop
  | .comp .next fs => UserLs x fs
  | .comp _ fs => NextLs x fs
  | .quant _ _ f => NextL x f
  | _ => False
termination_by structural f => f
def NextLs (x : TRef) : List LForm → Prop
  | [] => False
  | f :: fs => NextL x f ∨ NextLs x fs
termination_by structural fs => fs
end

mutual
/-- What a term on the left-hand side of an effect refers to: itself, or what the arguments of a builtin symbol refer to. -/
def HeadT (x : TRef) : Term → Prop
  | .app f ts => (fnBuiltin f = false ∧ x = .term f ts) ∨ (fnBuiltin f = true ∧ HeadTs x ts)
  | _ => False
termination_by structural t => t
def HeadTs (x : TRef) : List Term → Prop
  | [] => False
  | t :: ts => HeadT x t ∨ HeadTs x ts
termination_by structural ts => ts
end

/-- The same for atoms. -/
def HeadAtom (x : TRef) (p : PSym) (ts : List Term) : Prop :=
  (p.builtin = false ∧ x = .atom p ts) ∨ (p.builtin = true ∧ HeadTs x ts)

mutual
/-- The same for formulas. -/
def HeadF (x : TRef) : Formula → Prop
  | .comp _ _ fs => HeadFs x fs
  | .quant _ _ f => HeadF x f
  | .atom p ts => HeadAtom x p ts
  | _ => False
termination_by structural f => f
def HeadFs (x : TRef) : List Formula → Prop
  | [] => False
  | f :: fs => HeadF x f ∨ HeadFs x fs
termination_by structural fs => fs
end

/-- `x` is changed by an effect that is not universal. -/
def EffHead (x : TRef) : Effect → Prop
  | .add _ p ts => HeadAtom x p ts
  | .del _ p ts => HeadAtom x p ts
  | .lit _ l => HeadF x l
  | .assign _ f ts _ => HeadT x (.app f ts)
  | .univ _ _ _ => False

/-- The constraint joins its terms by some connective. -/
def LForm.Joins : LForm → Prop
  | .comp _ _ => True
  | .quant _ _ f => f.Joins
  | _ => False

/-- The fluent terms: those that effects change, those under a `next` operator in a constraint, and those that occur in a
constraint together with a fluent term. -/
inductive FluentIn (p : GProblem) : TRef → Prop where
  | effect {a e x} : a ∈ p.actions → e ∈ a.effs → EffHead x e → FluentIn p x
  | reaction {r x} : r ∈ p.reactions → EffHead x r.2 → FluentIn p x
  | next {c x} : c ∈ p.constraints → NextL x c → FluentIn p x
  | joined {c x y} : c ∈ p.constraints → c.Joins → UserL x c → UserL y c → FluentIn p y → FluentIn p x

mutual
/-- `x` is an atom of the formula. -/
def AtomIn (x : TRef) : Formula → Prop
  | .comp _ _ fs => AtomIns x fs
  | .quant _ _ f => AtomIn x f
  | .atom p ts => x = .atom p ts
  | _ => False
termination_by structural f => f
def AtomIns (x : TRef) : List Formula → Prop
  | [] => False
  | f :: fs => AtomIn x f ∨ AtomIns x fs
termination_by structural fs => fs
end

mutual
/-- `x` is an application, possibly of a builtin symbol, that occurs in the term. -/
def AnyT (x : TRef) : Term → Prop
  | .app f ts => x = .term f ts ∨ AnyTs x ts
  | _ => False
termination_by structural t => t
def AnyTs (x : TRef) : List Term → Prop
  | [] => False
  | t :: ts => AnyT x t ∨ AnyTs x ts
termination_by structural ts => ts
end

mutual
/-- `x` is an atom or application that occurs in the constraint outside of `next` operators. -/
def NowL (x : TRef) : LForm → Prop
  | .atom p ts => x = .atom p ts ∨ AnyTs x ts
  | .comp .next _ => False
  | .comp _ fs => NowLs x fs
  | .quant _ _ f => NowL x f
  | _ => False
termination_by structural f => f
def NowLs (x : TRef) : List LForm → Prop
  | [] => False
  | f :: fs => NowL x f ∨ NowLs x fs
termination_by structural fs => fs
end

/-- The terms that are only read: atoms of preconditions and of conditions of effects, reactions, differential constraints and
sensors, the variates of differential constraints, the observations of sensors, and what occurs in constraints outside of
`next` operators. -/
def ReadIn (p : GProblem) (x : TRef) : Prop :=
  (∃ a ∈ p.actions, AtomIn x a.pre ∨ ∃ e ∈ a.effs, AtomIn x e.cond) ∨
  (∃ c ∈ p.constraints, NowL x c) ∨ (∃ r ∈ p.reactions, AtomIn x r.1) ∨
  (∃ d ∈ p.diffs, AtomIn x d.1 ∨ ∃ f ts, d.2 = .app f ts ∧ x = .term f ts) ∨
  ∃ d ∈ p.sensors, AtomIn x d.1 ∨ AtomIn x d.2

/-- The effects of reactions that the code can analyse. -/
def SimpleEffect : Effect → Prop
  | .add .. => True
  | .del .. => True
  | .assign .. => True
  | _ => False

/-! ### Proofs -/

mutual
theorem effT_mem (x : TRef) : ∀ (t : Term) (fl : List TRef), x ∈ effT t fl ↔ HeadT x t ∨ x ∈ fl
  | .app f ts, fl => by
    simp only [effT, HeadT]
    cases h : fnBuiltin f <;> simp [effTs_mem x ts, mem_setAdd]
  | .var _, fl => by simp [effT, HeadT]
  | .const _ _, fl => by simp [effT, HeadT]
  | .ite _ _ _, fl => by simp [effT, HeadT]
termination_by structural t => t
theorem effTs_mem (x : TRef) : ∀ (ts : List Term) (fl : List TRef), x ∈ effTs ts fl ↔ HeadTs x ts ∨ x ∈ fl
  | [], fl => by simp [effTs, HeadTs]
  | t :: ts, fl => by simp only [effTs, HeadTs, effTs_mem x ts, effT_mem x t]; tauto
termination_by structural ts => ts
end

theorem effAtom_mem (x : TRef) (p : PSym) (ts : List Term) (fl : List TRef) :
    x ∈ effAtom p ts fl ↔ HeadAtom x p ts ∨ x ∈ fl := by
  simp only [effAtom, HeadAtom]
  cases h : p.builtin <;> simp [effTs_mem x ts, mem_setAdd]

mutual
theorem effF_mem (x : TRef) : ∀ (f : Formula) (fl : List TRef), x ∈ effF f fl ↔ HeadF x f ∨ x ∈ fl
  | .top, fl => by simp [effF, HeadF]
  | .bot, fl => by simp [effF, HeadF]
  | .atom p ts, fl => by simp only [effF, HeadF, effAtom_mem]
  | .comp _ _ fs, fl => by simp only [effF, HeadF, effFs_mem x fs]
  | .quant _ _ f, fl => by simp only [effF, HeadF, effF_mem x f]
termination_by structural f => f
theorem effFs_mem (x : TRef) : ∀ (fs : List Formula) (fl : List TRef), x ∈ effFs fs fl ↔ HeadFs x fs ∨ x ∈ fl
  | [], fl => by simp [effFs, HeadFs]
  | f :: fs, fl => by simp only [effFs, HeadFs, effFs_mem x fs, effF_mem x f]; tauto
termination_by structural fs => fs
end

mutual
theorem preF_mem (x : TRef) : ∀ (f : Formula) (fl : List TRef), x ∈ preF f fl ↔ AtomIn x f ∨ x ∈ fl
  | .top, fl => by simp [preF, AtomIn]
  | .bot, fl => by simp [preF, AtomIn]
  | .atom p ts, fl => by simp only [preF, AtomIn, mem_setAdd]
  | .comp _ _ fs, fl => by simp only [preF, AtomIn, preFs_mem x fs]
  | .quant _ _ f, fl => by simp only [preF, AtomIn, preF_mem x f]
termination_by structural f => f
theorem preFs_mem (x : TRef) : ∀ (fs : List Formula) (fl : List TRef), x ∈ preFs fs fl ↔ AtomIns x fs ∨ x ∈ fl
  | [], fl => by simp [preFs, AtomIns]
  | f :: fs, fl => by simp only [preFs, AtomIns, preFs_mem x fs, preF_mem x f]; tauto
termination_by structural fs => fs
end

theorem preT_mem (x : TRef) (t : Term) (st : List TRef) :
    x ∈ preT t st ↔ (∃ f ts, t = .app f ts ∧ x = .term f ts) ∨ x ∈ st := by
  cases t <;> simp [preT, mem_setAdd]

/-! Nodup -/

mutual
theorem effT_nodup : ∀ (t : Term) {fl : List TRef}, fl.Nodup → (effT t fl).Nodup
  | .app f ts, fl, h => by
    simp only [effT]; split
    · exact effTs_nodup ts h
    · exact nodup_setAdd h
  | .var _, fl, h => h
  | .const _ _, fl, h => h
  | .ite _ _ _, fl, h => h
termination_by structural t => t
theorem effTs_nodup : ∀ (ts : List Term) {fl : List TRef}, fl.Nodup → (effTs ts fl).Nodup
  | [], _, h => h
  | t :: ts, _, h => effTs_nodup ts (effT_nodup t h)
termination_by structural ts => ts
end

theorem effAtom_nodup (p : PSym) (ts : List Term) {fl : List TRef} (h : fl.Nodup) : (effAtom p ts fl).Nodup := by
  simp only [effAtom]; split
  · exact effTs_nodup ts h
  · exact nodup_setAdd h

mutual
theorem effF_nodup : ∀ (f : Formula) {fl : List TRef}, fl.Nodup → (effF f fl).Nodup
  | .top, _, h => h
  | .bot, _, h => h
  | .atom p ts, _, h => effAtom_nodup p ts h
  | .comp _ _ fs, _, h => effFs_nodup fs h
  | .quant _ _ f, _, h => effF_nodup f h
termination_by structural f => f
theorem effFs_nodup : ∀ (fs : List Formula) {fl : List TRef}, fl.Nodup → (effFs fs fl).Nodup
  | [], _, h => h
  | f :: fs, _, h => effFs_nodup fs (effF_nodup f h)
termination_by structural fs => fs
end

theorem foldl_setAdd_nodup {l fl : List TRef} (h : fl.Nodup) : (l.foldl setAdd fl).Nodup := by
  induction l generalizing fl with
  | nil => exact h
  | cons x l ih => exact ih (nodup_setAdd h)

theorem foldl_setAdd_mem {l fl : List TRef} {x : TRef} : x ∈ l.foldl setAdd fl ↔ x ∈ l ∨ x ∈ fl := by
  induction l generalizing fl with
  | nil => simp
  | cons y l ih => simp only [List.foldl_cons, ih, mem_setAdd, List.mem_cons]; tauto

/-! Constraints -/

theorem conNode_spec (nx b : Bool) (x : TRef) (s : FState) :
    (s.fluents.Nodup → (conNode nx b x s).fluents.Nodup) ∧
    (∀ y, y ∈ (conNode nx b x s).visited ↔ (b = false ∧ y = x) ∨ y ∈ s.visited) ∧
    (∀ y, y ∈ (conNode nx b x s).fluents ↔ (nx = true ∧ b = false ∧ y = x) ∨ y ∈ s.fluents) ∧
    ∀ y, y ∈ (conNode nx b x s).statics ↔ (nx = false ∧ y = x) ∨ y ∈ s.statics := by
  cases nx <;> cases b <;> simp [conNode, mem_setAdd]
  exact nodup_setAdd

mutual
theorem conT_spec (nx : Bool) : ∀ (t : Term) (s : FState),
    (s.fluents.Nodup → (conT nx t s).fluents.Nodup) ∧
    (∀ y, y ∈ (conT nx t s).visited ↔ UserT y t ∨ y ∈ s.visited) ∧
    (∀ y, y ∈ (conT nx t s).fluents ↔ (nx = true ∧ UserT y t) ∨ y ∈ s.fluents) ∧
    ∀ y, y ∈ (conT nx t s).statics ↔ (nx = false ∧ AnyT y t) ∨ y ∈ s.statics
  | .var _, s => by simp [conT, UserT, AnyT]
  | .const _ _, s => by simp [conT, UserT, AnyT]
  | .ite _ _ _, s => by simp [conT, UserT, AnyT]
  | .app f ts, s => by
    obtain ⟨a0, a1, a2, a3⟩ := conTs_spec nx ts (conNode nx (fnBuiltin f) (.term f ts) s)
    obtain ⟨b0, b1, b2, b3⟩ := conNode_spec nx (fnBuiltin f) (.term f ts) s
    simp only [conT, UserT, AnyT, a1, a2, a3, b1, b2, b3]
    refine ⟨fun h => a0 (b0 h), fun y => ?_, fun y => ?_, fun y => ?_⟩ <;> tauto
termination_by structural t => t
theorem conTs_spec (nx : Bool) : ∀ (ts : List Term) (s : FState),
    (s.fluents.Nodup → (conTs nx ts s).fluents.Nodup) ∧
    (∀ y, y ∈ (conTs nx ts s).visited ↔ UserTs y ts ∨ y ∈ s.visited) ∧
    (∀ y, y ∈ (conTs nx ts s).fluents ↔ (nx = true ∧ UserTs y ts) ∨ y ∈ s.fluents) ∧
    ∀ y, y ∈ (conTs nx ts s).statics ↔ (nx = false ∧ AnyTs y ts) ∨ y ∈ s.statics
  | [], s => by simp [conTs, UserTs, AnyTs]
  | t :: ts, s => by
    obtain ⟨a0, a1, a2, a3⟩ := conTs_spec nx ts (conT nx t s)
    obtain ⟨b0, b1, b2, b3⟩ := conT_spec nx t s
    simp only [conTs, UserTs, AnyTs, a1, a2, a3, b1, b2, b3]
    refine ⟨fun h => a0 (b0 h), fun y => ?_, fun y => ?_, fun y => ?_⟩ <;> tauto
termination_by structural ts => ts
end

theorem spread_spec (old : List TRef) (s : FState) :
    (s.fluents.Nodup → (spread old s).fluents.Nodup) ∧ (spread old s).visited = s.visited ∧ (spread old s).statics = s.statics ∧
    ∀ y, y ∈ (spread old s).fluents ↔
      y ∈ s.fluents ∨ (y ∈ s.visited ∧ y ∉ old ∧ ∃ z ∈ s.visited, z ∉ old ∧ z ∈ s.fluents) := by
  unfold spread
  by_cases h : (s.visited.filter (fun x => x ∉ old)).any (fun x => x ∈ s.fluents) = true
  · simp only [h, if_true]
    refine ⟨fun hn => foldl_setAdd_nodup hn, trivial, trivial, fun y => ?_⟩
    rw [foldl_setAdd_mem]
    simp only [List.any_eq_true, List.mem_filter, decide_eq_true_eq] at h ⊢
    obtain ⟨z, ⟨h1, h2⟩, h3⟩ := h
    constructor
    · rintro (⟨h4, h5⟩ | h4)
      · exact .inr ⟨h4, h5, z, h1, h2, h3⟩
      · exact .inl h4
    · rintro (h4 | ⟨h4, h5, -⟩)
      · exact .inr h4
      · exact .inl ⟨h4, h5⟩
  · simp only [h]
    refine ⟨id, rfl, rfl, fun y => ?_⟩
    simp only [List.any_eq_true, List.mem_filter, decide_eq_true_eq] at h
    constructor
    · exact .inl
    · rintro (h4 | ⟨_, _, z, h1, h2, h3⟩)
      · exact h4
      · exact absurd ⟨z, ⟨h1, h2⟩, h3⟩ h

/-- `S` holds of everything that the constraint `f`, visited with the flag `nx`, may add. -/
def Closes (S : TRef → Prop) (nx : Bool) (f : LForm) : Prop :=
  (nx = true → ∀ x, UserL x f → S x) ∧ (∀ x, NextL x f → S x) ∧
  (f.Joins → ∀ x y, UserL x f → UserL y f → S y → S x)

theorem occLs_iff (x : TRef) (fs : List LForm) : UserLs x fs ↔ ∃ f ∈ fs, UserL x f := by
  induction fs with
  | nil => simp [UserLs]
  | cons f fs ih => simp [UserLs, ih]

theorem nextLs_iff (x : TRef) (fs : List LForm) : NextLs x fs ↔ ∃ f ∈ fs, NextL x f := by
  induction fs with
  | nil => simp [NextLs]
  | cons f fs ih => simp [NextLs, ih]

theorem conL_comp {c : LConn} (hc : c ≠ .next) (nx : Bool) (fs : List LForm) (s : FState) (x : TRef) :
    conL nx (.comp c fs) s = spread s.visited (conLs nx fs s) ∧ (NextL x (.comp c fs) ↔ NextLs x fs) ∧
    (NowL x (.comp c fs) ↔ NowLs x fs) := by
  cases c <;> simp_all [conL, NextL, NowL]

mutual
theorem occL_of_next (x : TRef) : ∀ f : LForm, NextL x f → UserL x f
  | .top, h => by simp [NextL] at h
  | .bot, h => by simp [NextL] at h
  | .atom _ _, h => by simp [NextL] at h
  | .quant _ _ f, h => by simp only [NextL, UserL] at h ⊢; exact occL_of_next x f h
  | .comp c fs, h => by
    by_cases hc : c = .next
    · subst hc; simpa only [NextL, UserL] using h
    · rw [(conL_comp hc false fs ⟨[], [], []⟩ x).2.1] at h
      simp only [UserL]; exact occLs_of_next x fs h
termination_by structural f => f
theorem occLs_of_next (x : TRef) : ∀ fs : List LForm, NextLs x fs → UserLs x fs
  | [], h => by simp [NextLs] at h
  | f :: fs, h => by
    simp only [NextLs, UserLs] at h ⊢
    exact h.imp (occL_of_next x f) (occLs_of_next x fs)
termination_by structural fs => fs
end

mutual
theorem conL_spec (nx : Bool) : ∀ (f : LForm) (s : FState),
    (s.fluents.Nodup → (conL nx f s).fluents.Nodup) ∧
    (∀ y, y ∈ (conL nx f s).visited ↔ UserL y f ∨ y ∈ s.visited) ∧
    (∀ y, y ∈ (conL nx f s).statics ↔ (nx = false ∧ NowL y f) ∨ y ∈ s.statics) ∧
    (∀ y, (nx = true ∧ UserL y f) ∨ NextL y f ∨ y ∈ s.fluents → y ∈ (conL nx f s).fluents) ∧
    (∀ S, Closes S nx f → (∀ y ∈ s.fluents, S y) → ∀ y ∈ (conL nx f s).fluents, S y)
  | .top, s => by
    refine ⟨id, ?_, ?_, ?_, fun S _ h => h⟩ <;> simp [conL, UserL, NowL, NextL]
  | .bot, s => by
    refine ⟨id, ?_, ?_, ?_, fun S _ h => h⟩ <;> simp [conL, UserL, NowL, NextL]
  | .atom p ts, s => by
    obtain ⟨a0, a1, a2, a3⟩ := conTs_spec nx ts (conNode nx p.builtin (.atom p ts) s)
    obtain ⟨b0, b1, b2, b3⟩ := conNode_spec nx p.builtin (.atom p ts) s
    simp only [conL, UserL, NowL, NextL, a1, a2, a3, b1, b2, b3]
    refine ⟨fun h => a0 (b0 h), fun y => by tauto, fun y => by tauto, fun y => by tauto, fun S hS h y hy => ?_⟩
    rcases hy with ⟨h1, h2⟩ | ⟨h1, h2, rfl⟩ | h1
    · exact hS.1 h1 y (by simp [UserL, h2])
    · exact hS.1 h1 _ (by simp [UserL, h2])
    · exact h y h1
  | .quant _ _ f, s => by
    obtain ⟨a0, a1, a3, a4, a5⟩ := conL_spec nx f s
    simp only [conL, UserL, NowL, NextL]
    refine ⟨a0, a1, a3, a4, fun S hS => a5 S ?_⟩
    simpa only [Closes, UserL, NextL, LForm.Joins] using hS
  | .comp c fs, s => by
    by_cases hc : c = .next
    · subst hc
      obtain ⟨a0, a1, a3, a4, a5⟩ := conLs_spec true fs s
      simp only [conL, UserL, NowL, NextL]
      refine ⟨a0, a1, fun y => by simp [a3], fun y hy => a4 y (by tauto), fun S hS h => a5 S (fun f hf => ?_) h⟩
      have key : ∀ x, UserL x f → S x := fun x hx => hS.2.1 x (by simp only [NextL]; exact (occLs_iff x fs).2 ⟨f, hf, hx⟩)
      exact ⟨fun _ => key, fun x hx => key x (occL_of_next x f hx), fun _ x _ hx _ _ => key x hx⟩
    · obtain ⟨a0, a1, a3, a4, a5⟩ := conLs_spec nx fs s
      obtain ⟨b0, b1, b2, b3⟩ := spread_spec s.visited (conLs nx fs s)
      have e := fun x => (conL_comp hc nx fs s x).2
      rw [(conL_comp hc nx fs s (.atom (.user "") [])).1]
      simp only [UserL, b1, b2]
      refine ⟨fun h => b0 (a0 h), a1, fun y => by rw [(e y).2]; exact a3 y, fun y hy => ?_, fun S hS h y hy => ?_⟩
      · rw [(e y).1] at hy
        exact (b3 y).2 (.inl (a4 y hy))
      · have hA : ∀ y ∈ (conLs nx fs s).fluents, S y := by
          refine a5 S (fun f hf => ⟨fun hn x hx => hS.1 hn x ?_, fun x hx => hS.2.1 x ?_, fun _ x y hx hy => hS.2.2 trivial x y ?_ ?_⟩) h
          · simp only [UserL]; exact (occLs_iff x fs).2 ⟨f, hf, hx⟩
          · rw [(e x).1]; exact (nextLs_iff x fs).2 ⟨f, hf, hx⟩
          · simp only [UserL]; exact (occLs_iff x fs).2 ⟨f, hf, hx⟩
          · simp only [UserL]; exact (occLs_iff y fs).2 ⟨f, hf, hy⟩
        rcases (b3 y).1 hy with hy | ⟨hy, hy', z, hz, hz', hz''⟩
        · exact hA y hy
        · refine hS.2.2 trivial y z ?_ ?_ (hA z hz'')
          · simp only [UserL]; exact ((a1 y).1 hy).resolve_right hy'
          · simp only [UserL]; exact ((a1 z).1 hz).resolve_right hz'
termination_by structural f => f
theorem conLs_spec (nx : Bool) : ∀ (fs : List LForm) (s : FState),
    (s.fluents.Nodup → (conLs nx fs s).fluents.Nodup) ∧
    (∀ y, y ∈ (conLs nx fs s).visited ↔ UserLs y fs ∨ y ∈ s.visited) ∧
    (∀ y, y ∈ (conLs nx fs s).statics ↔ (nx = false ∧ NowLs y fs) ∨ y ∈ s.statics) ∧
    (∀ y, (nx = true ∧ UserLs y fs) ∨ NextLs y fs ∨ y ∈ s.fluents → y ∈ (conLs nx fs s).fluents) ∧
    (∀ S, (∀ f ∈ fs, Closes S nx f) → (∀ y ∈ s.fluents, S y) → ∀ y ∈ (conLs nx fs s).fluents, S y)
  | [], s => by
    refine ⟨id, ?_, ?_, ?_, fun S _ h => h⟩ <;> simp [conLs, UserLs, NowLs, NextLs]
  | f :: fs, s => by
    obtain ⟨a0, a1, a3, a4, a5⟩ := conLs_spec nx fs (conL nx f s)
    obtain ⟨b0, b1, b3, b4, b5⟩ := conL_spec nx f s
    simp only [conLs, UserLs, NowLs, NextLs, a1, a3, b1, b3]
    refine ⟨fun h => a0 (b0 h), fun y => by tauto, fun y => by tauto, fun y hy => ?_, fun S hS h => ?_⟩
    · have := a4 y
      have := b4 y
      tauto
    · exact a5 S (fun g hg => hS g (by simp [hg])) (b5 S (hS f (by simp)) h)
termination_by structural fs => fs
end

/-- In a constraint with a connective, one fluent term makes all terms fluent. -/
theorem conL_joins (nx : Bool) : ∀ (f : LForm) (s : FState), s.visited = [] → f.Joins → (∃ y, UserL y f ∧ y ∈ s.fluents) →
    ∀ x, UserL x f → x ∈ (conL nx f s).fluents
  | .top, s, _, h, _ => by cases h
  | .bot, s, _, h, _ => by cases h
  | .atom _ _, s, _, h, _ => by cases h
  | .quant _ _ f, s, hv, hj, hy => by
    simp only [UserL, conL] at hy ⊢
    exact conL_joins nx f s hv hj hy
  | .comp c fs, s, hv, _, hy => by
    intro x hx
    by_cases hc : c = .next
    · subst hc
      exact (conL_spec nx _ s).2.2.2.1 x (.inr (.inl (by simpa only [NextL, UserL] using hx)))
    · obtain ⟨a0, a1, a3, a4, a5⟩ := conLs_spec nx fs s
      rw [(conL_comp hc nx fs s x).1]
      refine ((spread_spec s.visited (conLs nx fs s)).2.2.2 x).2 (.inr ?_)
      obtain ⟨y, hy, hy'⟩ := hy
      simp only [UserL] at hx hy
      refine ⟨(a1 x).2 (.inl hx), by simp [hv], y, (a1 y).2 (.inl hy), by simp [hv], a4 y (.inr (.inr hy'))⟩

/-! One round -/

theorem symEffect_spec (e : Effect) (s : FState) :
    (s.fluents.Nodup → (symEffect e s).fluents.Nodup) ∧
    (∀ x, x ∈ (symEffect e s).fluents ↔ EffHead x e ∨ x ∈ s.fluents) ∧
    (∀ x, x ∈ (symEffect e s).statics ↔ AtomIn x e.cond ∨ x ∈ s.statics) := by
  cases e <;> simp only [symEffect, EffHead, preF_mem, effAtom_mem, effF_mem, effT_mem, implies_true, and_true, false_or, and_self]
  · exact effAtom_nodup _ _
  · exact effAtom_nodup _ _
  · exact effF_nodup _
  · exact effT_nodup _
  · exact id

theorem symEffects_spec (es : List Effect) (s : FState) :
    (s.fluents.Nodup → (es.foldl (fun s e => symEffect e s) s).fluents.Nodup) ∧
    (∀ x, x ∈ (es.foldl (fun s e => symEffect e s) s).fluents ↔ (∃ e ∈ es, EffHead x e) ∨ x ∈ s.fluents) ∧
    (∀ x, x ∈ (es.foldl (fun s e => symEffect e s) s).statics ↔ (∃ e ∈ es, AtomIn x e.cond) ∨ x ∈ s.statics) := by
  induction es generalizing s with
  | nil => simp
  | cons e es ih =>
    obtain ⟨a0, a1, a2⟩ := symEffect_spec e s
    obtain ⟨b0, b1, b2⟩ := ih (symEffect e s)
    simp only [List.foldl_cons]
    refine ⟨fun h => b0 (a0 h), fun x => ?_, fun x => ?_⟩
    · rw [b1, a1]; simp only [List.mem_cons, exists_eq_or_imp]; apply iff_of_eq; ac_rfl
    · rw [b2, a2]; simp only [List.mem_cons, exists_eq_or_imp]; apply iff_of_eq; ac_rfl

theorem symActions_spec (as : List PAction) (s : FState) :
    (s.fluents.Nodup → (as.foldl symAction s).fluents.Nodup) ∧
    (∀ x, x ∈ (as.foldl symAction s).fluents ↔ (∃ a ∈ as, ∃ e ∈ a.effs, EffHead x e) ∨ x ∈ s.fluents) ∧
    (∀ x, x ∈ (as.foldl symAction s).statics ↔ (∃ a ∈ as, AtomIn x a.pre ∨ ∃ e ∈ a.effs, AtomIn x e.cond) ∨ x ∈ s.statics) := by
  induction as generalizing s with
  | nil => simp
  | cons a as ih =>
    obtain ⟨a0, a1, a2⟩ := symEffects_spec a.effs { s with statics := preF a.pre s.statics }
    obtain ⟨b0, b1, b2⟩ := ih (symAction s a)
    simp only [List.foldl_cons]
    refine ⟨fun h => b0 (a0 h), fun x => ?_, fun x => ?_⟩
    · rw [b1, symAction, a1]; simp only [List.mem_cons, exists_eq_or_imp]; apply iff_of_eq; ac_rfl
    · rw [b2, symAction, a2, preF_mem]; simp only [List.mem_cons, exists_eq_or_imp]; apply iff_of_eq; ac_rfl

theorem symConstraints_spec (cs : List LForm) (s : FState) :
    (s.fluents.Nodup → (cs.foldl symConstraint s).fluents.Nodup) ∧
    (∀ x, (∃ c ∈ cs, NextL x c) ∨ x ∈ s.fluents → x ∈ (cs.foldl symConstraint s).fluents) ∧
    (∀ c ∈ cs, c.Joins → (∃ y, UserL y c ∧ y ∈ s.fluents) → ∀ x, UserL x c → x ∈ (cs.foldl symConstraint s).fluents) ∧
    (∀ S, (∀ c ∈ cs, Closes S false c) → (∀ y ∈ s.fluents, S y) → ∀ y ∈ (cs.foldl symConstraint s).fluents, S y) ∧
    (∀ x, x ∈ (cs.foldl symConstraint s).statics ↔ (∃ c ∈ cs, NowL x c) ∨ x ∈ s.statics) := by
  induction cs generalizing s with
  | nil => simp
  | cons c cs ih =>
    obtain ⟨a0, -, a2, a3, a4⟩ := conL_spec false c { s with visited := [] }
    have a5 := conL_joins false c { s with visited := [] } rfl
    obtain ⟨b0, b1, b2, b3, b4⟩ := ih (symConstraint s c)
    simp only [List.foldl_cons]
    refine ⟨fun h => b0 (a0 h), fun x hx => b1 x ?_, fun d hd hj hy x hx => ?_, fun S hS h => ?_, fun x => ?_⟩
    · simp only [List.mem_cons, exists_eq_or_imp] at hx
      rcases hx with (hx | hx) | hx
      · exact .inr (a3 x (.inr (.inl hx)))
      · exact .inl hx
      · exact .inr (a3 x (.inr (.inr hx)))
    · rcases List.mem_cons.1 hd with rfl | hd
      · exact b1 x (.inr (a5 hj hy x hx))
      · obtain ⟨y, hy, hy'⟩ := hy
        exact b2 d hd hj ⟨y, hy, a3 y (.inr (.inr hy'))⟩ x hx
    · exact b3 S (fun d hd => hS d (by simp [hd])) (a4 S (hS c (by simp)) h)
    · rw [b4, symConstraint, a2]; simp only [List.mem_cons, exists_eq_or_imp]; apply iff_of_eq; ac_rfl

theorem symReactions_error (rs : List (Formula × Effect)) (s : FState) (h : ∃ r ∈ rs, ¬ SimpleEffect r.2) :
    symReactions rs s = .error .runtime := by
  induction rs generalizing s with
  | nil => simp at h
  | cons r rs ih =>
    obtain ⟨c, e⟩ := r
    simp only [List.mem_cons, exists_eq_or_imp] at h
    cases e with
    | lit _ _ => rfl
    | univ _ _ _ => rfl
    | add _ _ _ => exact ih _ (h.resolve_left (by simp [SimpleEffect]))
    | del _ _ _ => exact ih _ (h.resolve_left (by simp [SimpleEffect]))
    | assign _ _ _ _ => exact ih _ (h.resolve_left (by simp [SimpleEffect]))

theorem symReactions_spec (rs : List (Formula × Effect)) (s : FState) (h : ∀ r ∈ rs, SimpleEffect r.2) :
    ∃ s', symReactions rs s = .ok s' ∧ (s.fluents.Nodup → s'.fluents.Nodup) ∧
    (∀ x, x ∈ s'.fluents ↔ (∃ r ∈ rs, EffHead x r.2) ∨ x ∈ s.fluents) ∧
    (∀ x, x ∈ s'.statics ↔ (∃ r ∈ rs, AtomIn x r.1) ∨ x ∈ s.statics) := by
  induction rs generalizing s with
  | nil => exact ⟨s, rfl, id, by simp, by simp⟩
  | cons r rs ih =>
    obtain ⟨c, e⟩ := r
    have ih := fun s => ih s fun r hr => h r (by simp [hr])
    have he := h (c, e) (by simp)
    cases e with
    | lit _ _ => cases he
    | univ _ _ _ => cases he
    | add d p ts =>
      obtain ⟨s', e1, e2, e3, e4⟩ := ih ⟨effAtom p ts s.fluents, preF c s.statics, s.visited⟩
      refine ⟨s', e1, fun hn => e2 (effAtom_nodup _ _ hn), fun x => ?_, fun x => ?_⟩
      · rw [e3, effAtom_mem]; simp only [List.mem_cons, exists_eq_or_imp, EffHead]; apply iff_of_eq; ac_rfl
      · rw [e4, preF_mem]; simp only [List.mem_cons, exists_eq_or_imp]; apply iff_of_eq; ac_rfl
    | del d p ts =>
      obtain ⟨s', e1, e2, e3, e4⟩ := ih ⟨effAtom p ts s.fluents, preF c s.statics, s.visited⟩
      refine ⟨s', e1, fun hn => e2 (effAtom_nodup _ _ hn), fun x => ?_, fun x => ?_⟩
      · rw [e3, effAtom_mem]; simp only [List.mem_cons, exists_eq_or_imp, EffHead]; apply iff_of_eq; ac_rfl
      · rw [e4, preF_mem]; simp only [List.mem_cons, exists_eq_or_imp]; apply iff_of_eq; ac_rfl
    | assign d f ts r =>
      obtain ⟨s', e1, e2, e3, e4⟩ := ih ⟨effT (.app f ts) s.fluents, preF c s.statics, s.visited⟩
      refine ⟨s', e1, fun hn => e2 (effT_nodup _ hn), fun x => ?_, fun x => ?_⟩
      · rw [e3, effT_mem]; simp only [List.mem_cons, exists_eq_or_imp, EffHead]; apply iff_of_eq; ac_rfl
      · rw [e4, preF_mem]; simp only [List.mem_cons, exists_eq_or_imp]; apply iff_of_eq; ac_rfl

theorem symDiffs_spec (ds : List (Formula × Term)) (s : FState) :
    (ds.foldl symDiff s).fluents = s.fluents ∧
    ∀ x, x ∈ (ds.foldl symDiff s).statics ↔
      (∃ d ∈ ds, AtomIn x d.1 ∨ ∃ f ts, d.2 = .app f ts ∧ x = .term f ts) ∨ x ∈ s.statics := by
  induction ds generalizing s with
  | nil => simp
  | cons d ds ih =>
    obtain ⟨a1, a2⟩ := ih (symDiff s d)
    simp only [List.foldl_cons]
    refine ⟨a1, fun x => ?_⟩
    rw [a2, symDiff, preT_mem, preF_mem]; simp only [List.mem_cons, exists_eq_or_imp]; apply iff_of_eq; ac_rfl

theorem symSensors_spec (ds : List (Formula × Formula)) (s : FState) :
    (ds.foldl symSensor s).fluents = s.fluents ∧
    ∀ x, x ∈ (ds.foldl symSensor s).statics ↔ (∃ d ∈ ds, AtomIn x d.1 ∨ AtomIn x d.2) ∨ x ∈ s.statics := by
  induction ds generalizing s with
  | nil => simp
  | cons d ds ih =>
    obtain ⟨a1, a2⟩ := ih (symSensor s d)
    simp only [List.foldl_cons]
    refine ⟨a1, fun x => ?_⟩
    rw [a2, symSensor, preF_mem, preF_mem]; simp only [List.mem_cons, exists_eq_or_imp]; apply iff_of_eq; ac_rfl

theorem getSymbols_error (p : GProblem) (s : FState) (h : ∃ r ∈ p.reactions, ¬ SimpleEffect r.2) :
    getSymbols p s = .error .runtime := by
  simp only [getSymbols, symReactions_error _ _ h]

theorem getSymbols_spec (p : GProblem) (s : FState) (h : ∀ r ∈ p.reactions, SimpleEffect r.2) :
    ∃ s', getSymbols p s = .ok s' ∧ (s.fluents.Nodup → s'.fluents.Nodup) ∧
      (∀ x ∈ s.fluents, x ∈ s'.fluents) ∧
      (∀ a ∈ p.actions, ∀ e ∈ a.effs, ∀ x, EffHead x e → x ∈ s'.fluents) ∧
      (∀ r ∈ p.reactions, ∀ x, EffHead x r.2 → x ∈ s'.fluents) ∧
      (∀ c ∈ p.constraints, ∀ x, NextL x c → x ∈ s'.fluents) ∧
      (∀ c ∈ p.constraints, c.Joins → (∃ y, UserL y c ∧ y ∈ s.fluents) → ∀ x, UserL x c → x ∈ s'.fluents) ∧
      ((∀ x ∈ s.fluents, FluentIn p x) → ∀ x ∈ s'.fluents, FluentIn p x) ∧
      ∀ x, x ∈ s'.statics ↔ ReadIn p x ∨ x ∈ s.statics := by
  obtain ⟨a0, a1, a2⟩ := symActions_spec p.actions s
  obtain ⟨b0, b1, b2, b3, b4⟩ := symConstraints_spec p.constraints (p.actions.foldl symAction s)
  obtain ⟨s3, c1, c2, c3, c4⟩ := symReactions_spec p.reactions (p.constraints.foldl symConstraint (p.actions.foldl symAction s)) h
  obtain ⟨d1, d2⟩ := symDiffs_spec p.diffs s3
  obtain ⟨e1, e2⟩ := symSensors_spec p.sensors (p.diffs.foldl symDiff s3)
  refine ⟨p.sensors.foldl symSensor (p.diffs.foldl symDiff s3), by simp only [getSymbols, c1], ?_⟩
  rw [e1, d1]
  have up : ∀ x ∈ (p.actions.foldl symAction s).fluents, x ∈ s3.fluents := fun x hx => (c3 x).2 (.inr (b1 x (.inr hx)))
  refine ⟨fun hn => c2 (b0 (a0 hn)), fun x hx => up x ((a1 x).2 (.inr hx)), fun a ha e he x hx => up x ((a1 x).2 (.inl ⟨a, ha, e, he, hx⟩)),
    fun r hr x hx => (c3 x).2 (.inl ⟨r, hr, hx⟩), fun c hc x hx => (c3 x).2 (.inr (b1 x (.inl ⟨c, hc, hx⟩))), fun c hc hj hy x hx => ?_,
    fun hS x hx => ?_, fun x => ?_⟩
  · obtain ⟨y, hy, hy'⟩ := hy
    exact (c3 x).2 (.inr (b2 c hc hj ⟨y, hy, (a1 y).2 (.inr hy')⟩ x hx))
  · rcases (c3 x).1 hx with ⟨r, hr, hx⟩ | hx
    · exact .reaction hr hx
    · refine b3 (FluentIn p) (fun c hc => ⟨(fun hf => by cases hf), fun x hx => .next hc hx, fun hj x y hx hy hS => .joined hc hj hx hy hS⟩)
        (fun y hy => ?_) x hx
      rcases (a1 y).1 hy with ⟨a, ha, e, he, hy⟩ | hy
      · exact .effect ha he hy
      · exact hS y hy
  · rw [e2, d2, c4, b4, a2]; simp only [ReadIn]; apply iff_of_eq; ac_rfl

theorem mem_dropFluents {st fl : List TRef} {x : TRef} : x ∈ dropFluents st fl ↔ x ∈ st ∧ x ∉ fl := by
  simp [dropFluents]

/-- A round without new fluents ends in a closed set. -/
theorem round_closed {p : GProblem} {s s' : FState} (h : ∀ r ∈ p.reactions, SimpleEffect r.2) (hr : getSymbols p s = .ok s')
    (hs : ∀ x ∈ s'.fluents, x ∈ s.fluents) : ∀ x, FluentIn p x → x ∈ s'.fluents := by
  obtain ⟨s'', e0, -, -, e3, e4, e5, e6, -, -⟩ := getSymbols_spec p s h
  rw [hr] at e0
  cases e0
  intro x hx
  induction hx with
  | effect ha he hx => exact e3 _ ha _ he _ hx
  | reaction hr hx => exact e4 _ hr _ hx
  | next hc hx => exact e5 _ hc _ hx
  | joined hc hj hx hy _ ih => exact e6 _ hc hj ⟨_, hy, hs _ ih⟩ _ hx

/-- What holds of the sets between rounds. -/
structure RoundInv (p : GProblem) (st : List TRef) (vis : FState) : Prop where
  nodup : vis.fluents.Nodup
  sound : ∀ x ∈ vis.fluents, FluentIn p x
  static : ∀ x, x ∈ st ↔ ReadIn p x ∧ x ∉ vis.fluents

theorem subset_of_length {α} {l l' : List α} (hn : l.Nodup) (hs : ∀ x ∈ l, x ∈ l') (hl : l'.length = l.length) : ∀ x ∈ l', x ∈ l :=
  fun _ hx => ((List.Nodup.subperm hn hs).perm_of_length_le (Nat.le_of_eq hl)).mem_iff.2 hx

theorem round_inv {p : GProblem} {st : List TRef} {s s' : FState} (h : ∀ r ∈ p.reactions, SimpleEffect r.2)
    (hr : getSymbols p s = .ok s') (hi : RoundInv p st s) :
    RoundInv p (dropFluents st s'.fluents) s' ∧ ∀ x ∈ s.fluents, x ∈ s'.fluents := by
  obtain ⟨s'', e0, e1, e2, -, -, -, -, e7, -⟩ := getSymbols_spec p s h
  rw [hr] at e0
  cases e0
  refine ⟨⟨e1 hi.nodup, e7 hi.sound, fun x => ?_⟩, e2⟩
  rw [mem_dropFluents, hi.static]
  constructor
  · rintro ⟨⟨h1, -⟩, h2⟩; exact ⟨h1, h2⟩
  · rintro ⟨h1, h2⟩; exact ⟨⟨h1, fun hx => h2 (e2 x hx)⟩, h2⟩

theorem symLoop_spec {p : GProblem} (h : ∀ r ∈ p.reactions, SimpleEffect r.2) : ∀ (n : Nat) (st : List TRef) (vis : FState)
    (fl st' : List TRef), RoundInv p st vis → symLoop p n st vis = some (.ok (fl, st')) →
    fl.Nodup ∧ (∀ x, x ∈ fl ↔ FluentIn p x) ∧ ∀ x, x ∈ st' ↔ ReadIn p x ∧ ¬ FluentIn p x
  | 0, st, vis, fl, st', _, h' => by simp [symLoop] at h'
  | n + 1, st, vis, fl, st', hi, h' => by
    obtain ⟨s', e0, -⟩ := getSymbols_spec p vis h
    obtain ⟨hi', hm⟩ := round_inv h e0 hi
    simp only [symLoop, e0] at h'
    split at h'
    · rename_i hl
      simp only [Option.some.injEq, Except.ok.injEq, Prod.mk.injEq] at h'
      obtain ⟨rfl, rfl⟩ := h'
      have hc := round_closed h e0 (subset_of_length hi.nodup hm hl.1)
      have hiff : ∀ x, x ∈ s'.fluents ↔ FluentIn p x := fun x => ⟨hi'.sound x, hc x⟩
      exact ⟨hi'.nodup, hiff, fun x => by rw [hi'.static, hiff]⟩
    · exact symLoop_spec h n _ _ fl st' hi' h'

theorem first_round {p : GProblem} (h : ∀ r ∈ p.reactions, SimpleEffect r.2) :
    ∃ vis, getSymbols p ⟨[], [], []⟩ = .ok vis ∧ RoundInv p (dropFluents vis.statics vis.fluents) vis := by
  obtain ⟨s', e0, e1, -, -, -, -, -, e7, e8⟩ := getSymbols_spec p ⟨[], [], []⟩ h
  refine ⟨s', e0, e1 List.nodup_nil, e7 (by simp), fun x => ?_⟩
  rw [mem_dropFluents, e8]
  simp

/-! ### C68 -/

/-- C68, exactness: what `process_symbols` returns are exactly the fluent terms and the terms that are read but not fluent,
for all problems, for all orders of actions, effects and constraints. -/
theorem C68_exact (p : GProblem) (n : Nat) (fl st : List TRef) (h : processSymbols p n = some (.ok (fl, st))) :
    fl.Nodup ∧ (∀ x, x ∈ fl ↔ FluentIn p x) ∧ ∀ x, x ∈ st ↔ ReadIn p x ∧ ¬ FluentIn p x := by
  by_cases hr : ∀ r ∈ p.reactions, SimpleEffect r.2
  · obtain ⟨vis, e0, hi⟩ := first_round hr
    simp only [processSymbols, e0] at h
    split at h
    · rename_i hl
      simp only [Option.some.injEq, Except.ok.injEq, Prod.mk.injEq] at h
      obtain ⟨rfl, rfl⟩ := h
      have hnil : vis.fluents = [] := List.length_eq_zero_iff.1 hl.1
      have hc := round_closed hr e0 (by simp [hnil])
      have hiff : ∀ x, x ∈ vis.fluents ↔ FluentIn p x := fun x => ⟨hi.sound x, hc x⟩
      exact ⟨hi.nodup, hiff, fun x => by rw [hi.static, hiff]⟩
    · exact symLoop_spec hr n _ _ fl st hi h
  · simp only [not_forall] at hr
    obtain ⟨r, hr, hs⟩ := hr
    simp [processSymbols, getSymbols_error p _ ⟨r, hr, hs⟩] at h

/-- The fluent terms of a problem are finitely many. -/
theorem fluents_finite (p : GProblem) : ∃ U : List TRef, ∀ x, FluentIn p x → x ∈ U := by
  obtain ⟨s0, hs0⟩ : ∃ s0 : FState, s0 = ⟨[], [], []⟩ := ⟨_, rfl⟩
  refine ⟨(p.actions.foldl symAction s0).fluents ++ (p.reactions.flatMap (fun r => (symEffect r.2 s0).fluents) ++
    p.constraints.flatMap (fun c => (conL false c s0).visited)), fun x hx => ?_⟩
  simp only [List.mem_append, List.mem_flatMap]
  cases hx with
  | effect ha he hx => exact .inl (((symActions_spec p.actions s0).2.1 x).2 (.inl ⟨_, ha, _, he, hx⟩))
  | reaction hr hx => exact .inr (.inl ⟨_, hr, ((symEffect_spec _ s0).2.1 x).2 (.inl hx)⟩)
  | next hc hx => exact .inr (.inr ⟨_, hc, ((conL_spec false _ s0).2.1 x).2 (.inl (occL_of_next x _ hx))⟩)
  | joined hc _ hx => exact .inr (.inr ⟨_, hc, ((conL_spec false _ s0).2.1 x).2 (.inl hx)⟩)

theorem symLoop_returns {p : GProblem} (h : ∀ r ∈ p.reactions, SimpleEffect r.2) {U : List TRef} (hU : ∀ x, FluentIn p x → x ∈ U) :
    ∀ (n : Nat) (st : List TRef) (vis : FState), RoundInv p st vis → (U.length - vis.fluents.length) + st.length < n →
    ∃ r, symLoop p n st vis = some (.ok r)
  | 0, _, _, _, hn => by omega
  | n + 1, st, vis, hi, hn => by
    obtain ⟨s', e0, -⟩ := getSymbols_spec p vis h
    obtain ⟨hi', hm⟩ := round_inv h e0 hi
    simp only [symLoop, e0]
    split
    · exact ⟨_, rfl⟩
    · rename_i hne
      refine symLoop_returns h hU n _ _ hi' ?_
      have h1 : vis.fluents.length ≤ s'.fluents.length := (List.Nodup.subperm hi.nodup hm).length_le
      have h2 : s'.fluents.length ≤ U.length := (List.Nodup.subperm hi'.nodup fun x hx => hU x (hi'.sound x hx)).length_le
      have h3 : (dropFluents st s'.fluents).length ≤ st.length := List.length_filter_le _ _
      omega

/-- C68, termination: `process_symbols` returns on every problem whose reactions have simple effects. -/
theorem C68_returns (p : GProblem) (h : ∀ r ∈ p.reactions, SimpleEffect r.2) :
    ∃ N, ∀ n ≥ N, ∃ fl st, processSymbols p n = some (.ok (fl, st)) := by
  obtain ⟨vis, e0, hi⟩ := first_round h
  obtain ⟨U, hU⟩ := fluents_finite p
  refine ⟨(U.length - vis.fluents.length) + (dropFluents vis.statics vis.fluents).length + 1, fun n hn => ?_⟩
  simp only [processSymbols, e0]
  split
  · exact ⟨_, _, rfl⟩
  · obtain ⟨⟨fl, st⟩, hr⟩ := symLoop_returns h hU n _ _ hi (by omega)
    exact ⟨fl, st, hr⟩

/-- C68: otherwise it raises `RuntimeError`. -/
theorem C68_raises (p : GProblem) (h : ∃ r ∈ p.reactions, ¬ SimpleEffect r.2) (n : Nat) :
    processSymbols p n = some (.error .runtime) := by
  simp only [processSymbols, getSymbols_error p _ h]

/-- What an effect alters under an assignment: the atom or the function at a point whose value it may change. -/
def AlterAtom {D : Type} (I : Interp D) (l : Formula) (σ : Asg D) (h : SVHead) (ds : List D) : Prop :=
  ∃ p ts, (l = .atom p ts ∨ ∃ k, l = .comp k .not [.atom p ts]) ∧ h = .pred p ∧ ds = evalTs I ts σ

mutual
noncomputable def Alters {D : Type} (I : Interp D) : Effect → Asg D → SVHead → List D → Prop
  | .add c p ts, σ, h, ds => Sat I c σ ∧ h = .pred p ∧ ds = evalTs I ts σ
  | .del c p ts, σ, h, ds => Sat I c σ ∧ h = .pred p ∧ ds = evalTs I ts σ
  | .lit c l, σ, h, ds => Sat I c σ ∧ AlterAtom I l σ h ds
  | .assign c f ts _, σ, h, ds => Sat I c σ ∧ h = .fn f ∧ ds = evalTs I ts σ
  | .univ c vs es, σ, h, ds => Sat I c σ ∧ quantBlock I .exists (vs.map Term.var) (fun τ => AltersAny I es τ h ds) σ
noncomputable def AltersAny {D : Type} (I : Interp D) : List Effect → Asg D → SVHead → List D → Prop
  | [], _, _, _ => False
  | e :: es, σ, h, ds => Alters I e σ h ds ∨ AltersAny I es σ h ds
end

/-- The point is an instance of the term. -/
def PointOf {D : Type} (I : Interp D) (x : TRef) (h : SVHead) (ds : List D) : Prop :=
  x.head = h ∧ ∃ τ : Asg D, ds = evalTs I x.args τ

/-- Symbols of the user. -/
def SVHead.user : SVHead → Prop
  | .pred p => p.builtin = false
  | .fn f => fnBuiltin f = false

/-- The full statement: whatever an action can alter is an instance of a fluent term. -/
def C68_changes_full : Prop := ∀ (p : GProblem) (n : Nat) (fl st : List TRef), processSymbols p n = some (.ok (fl, st)) →
  ∀ (D : Type) (I : Interp D), ∀ a ∈ p.actions, ∀ e ∈ a.effs, ∀ (σ : Asg D) h ds, h.user → Alters I e σ h ds →
    ∃ x ∈ fl, PointOf I x h ds

/-- C68, proved part: for effects that are not universal. -/
theorem C68_changes_partial (p : GProblem) (n : Nat) (fl st : List TRef) (hp : processSymbols p n = some (.ok (fl, st)))
    (D : Type) (I : Interp D) (a : PAction) (ha : a ∈ p.actions) (e : Effect) (he : e ∈ a.effs) (hu : ∀ c vs es, e ≠ .univ c vs es)
    (σ : Asg D) (h : SVHead) (ds : List D) (hh : h.user) (hal : Alters I e σ h ds) : ∃ x ∈ fl, PointOf I x h ds := by
  have key := fun x hx => ((C68_exact p n fl st hp).2.1 x).2 (.effect ha he hx)
  cases e with
  | add c q ts =>
    simp only [Alters] at hal
    obtain ⟨-, rfl, rfl⟩ := hal
    exact ⟨.atom q ts, key _ (.inl ⟨hh, rfl⟩), rfl, σ, rfl⟩
  | del c q ts =>
    simp only [Alters] at hal
    obtain ⟨-, rfl, rfl⟩ := hal
    exact ⟨.atom q ts, key _ (.inl ⟨hh, rfl⟩), rfl, σ, rfl⟩
  | lit c l =>
    simp only [Alters] at hal
    obtain ⟨-, q, ts, hl, rfl, rfl⟩ := hal
    refine ⟨.atom q ts, key _ ?_, rfl, σ, rfl⟩
    rcases hl with rfl | ⟨k, rfl⟩
    · simp only [EffHead, HeadF]; exact .inl ⟨hh, rfl⟩
    · simp only [EffHead, HeadF, HeadFs]; exact .inl (.inl ⟨hh, rfl⟩)
  | assign c f ts r =>
    simp only [Alters] at hal
    obtain ⟨-, rfl, rfl⟩ := hal
    refine ⟨.term f ts, key _ ?_, rfl, σ, rfl⟩
    simp only [EffHead, HeadT]
    exact .inl ⟨hh, trivial⟩
  | univ c vs es => exact absurd rfl (hu c vs es)

/-- The effects of a universal effect are not seen: what only they change is not fluent. -/
theorem C68_universal_refuted : ¬ C68_changes_full := by
  intro h
  have := h ⟨[⟨"a", [], .top, [.univ .top [⟨"x", "o"⟩] [.add .top (.user "p") [.var ⟨"x", "o"⟩]]], none⟩], [], [], [], []⟩ 1 [] [] rfl
    Unit ⟨fun _ _ => (), fun _ _ => (), fun _ _ => True, fun _ _ => True⟩ _ (.head _) _ (.head _) (fun _ => ()) (.pred (.user "p")) [()] rfl
    (by simp [Alters, AltersAny, quantBlock, Sat, evalTs, evalT])
  simp at this

/-- The full statement: no action alters an instance of a static term. -/
def C68_static_full : Prop := ∀ (p : GProblem) (n : Nat) (fl st : List TRef), processSymbols p n = some (.ok (fl, st)) →
  ∀ (D : Type) (I : Interp D), ∀ a ∈ p.actions, ∀ e ∈ a.effs, ∀ (σ : Asg D) h ds, Alters I e σ h ds →
    ∀ x ∈ st, ¬ PointOf I x h ds

/-- Terms are compared by the names of their variables: `at(x)` is static in an action that changes `at(y)`. -/
theorem C68_static_refuted : ¬ C68_static_full := by
  intro h
  refine h ⟨[⟨"move", [⟨"x", "o"⟩, ⟨"y", "o"⟩], .atom (.user "at") [.var ⟨"x", "o"⟩], [.add .top (.user "at") [.var ⟨"y", "o"⟩]], none⟩], [], [], [], []⟩
    2 [.atom (.user "at") [.var ⟨"y", "o"⟩]] [.atom (.user "at") [.var ⟨"x", "o"⟩]] rfl Unit ⟨fun _ _ => (), fun _ _ => (), fun _ _ => True, fun _ _ => True⟩
    _ (.head _) _ (.head _) (fun _ => ()) (.pred (.user "at")) [()] (by simp [Alters, Sat, evalTs, evalT]) _ (.head _) ⟨rfl, fun _ => (), ?_⟩
  simp [TRef.args, evalTs, evalT]

/-- The full statement: the variates of differential constraints, which change with time, are fluent. -/
def C68_variate_full : Prop := ∀ (p : GProblem) (n : Nat) (fl st : List TRef), processSymbols p n = some (.ok (fl, st)) →
  ∀ d ∈ p.diffs, ∀ f ts, d.2 = .app f ts → fnBuiltin f = false → .term f ts ∈ fl

/-- They are static. -/
theorem C68_variate_refuted : ¬ C68_variate_full := by
  intro h
  have := h ⟨[], [], [], [(.top, .app "speed" [])], []⟩ 2 [] [.term "speed" []] rfl _ (.head _) "speed" [] rfl (by decide)
  simp at this

/-- Non-vacuity: fluency spreads through two constraints, in the second round; the reaction has a simple effect. -/
def exSpread : GProblem where
  actions := [⟨"go", [], .atom (.user "s") [], [.add .top (.user "p") []], none⟩]
  constraints := [.comp (.bool .or) [.atom (.user "r") [], .atom (.user "q") []], .comp (.bool .or) [.atom (.user "q") [], .atom (.user "p") []],
    .comp .always [.comp .next [.atom (.cmp .eq) [.app "f" [], .app "g" []]]]]
  reactions := [(.top, .del .top (.user "w") [])]

example : ∃ fl st, processSymbols exSpread 5 = some (.ok (fl, st)) ∧ TRef.atom (.user "r") [] ∈ fl ∧ TRef.term "g" [] ∈ fl ∧
    TRef.atom (.user "s") [] ∈ st ∧ TRef.atom (.user "w") [] ∈ fl ∧ (∀ r ∈ exSpread.reactions, SimpleEffect r.2) :=
  ⟨_, _, rfl, by decide, by decide, by decide, by decide, by simp [exSpread, SimpleEffect]⟩

example : Alters (D := Unit) ⟨fun _ _ => (), fun _ _ => (), fun _ _ => True, fun _ _ => True⟩ (.lit .top (.comp .list .not [.atom (.user "p") []]))
    (fun _ => ()) (.pred (.user "p")) [] ∧ (SVHead.pred (.user "p")).user := by
  refine ⟨?_, rfl⟩
  simp [Alters, Sat, AlterAtom, evalTs]

example : ∃ r ∈ ({ exSpread with reactions := [(.top, .univ .top [] [])] } : GProblem).reactions, ¬ SimpleEffect r.2 := by
  simp [SimpleEffect]

end Tarski

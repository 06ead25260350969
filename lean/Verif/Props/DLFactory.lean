import Mathlib.Tactic.Common
import Verif.DLFactory
import Verif.Props.DL
/-! C63: sorts of description-logic elements. C64: elements pruned by the factory. -/
namespace Tarski
variable {α : Type} [DecidableEq α]

/-! ### Specification -/

/-- The state respects the sorts of the language: `ext` are the objects of each sort; a subsort has fewer objects, sorts that
are not in the hierarchy above each other have no common objects, and primitive symbols denote objects of their sorts. -/
structure SortedState (L : DLang) (S : DState α) (ext : String → Finset α) : Prop where
  ok : S.Ok
  object : ext "object" = S.univ
  sub : ∀ s t, L.isSub s t = true → ext s ⊆ ext t
  apart : ∀ s t, L.isSub s t = false → L.isSub t s = false → ∀ x, x ∈ ext s → x ∉ ext t
  concept : ∀ n, S.concept n ⊆ ext (L.cs n)
  role : ∀ n x y, (x, y) ∈ S.role n → x ∈ ext (L.rs n).1 ∧ y ∈ ext (L.rs n).2

/-- Every sort is below `object`. -/
def DLang.Rooted (L : DLang) : Prop := ∀ s, L.isSub s "object" = true

mutual
/-- Disjunctions are of concepts of the same sort; universal restrictions and equalities have the sort `object`: see the
refutations for the others. Below a negation, and in the concept of a restriction, anything goes. -/
def SafeC (L : DLang) : DConcept → Prop
  | .top => True
  | .bot => True
  | .prim _ => True
  | .not _ => True
  | .and c1 c2 => SafeC L c1 ∧ SafeC L c2
  | .or c1 c2 => SafeC L c1 ∧ SafeC L c2 ∧ sortC L c1 = sortC L c2
  | .exists r _ => SafeR L r
  | .forall r _ => ∀ s, sortR L r = some s → s.1 = "object"
  | .equal r1 r2 => ∀ s t, sortR L r1 = some s → sortR L r2 = some t → s.1 = "object" ∧ t.1 = "object"
def SafeR (L : DLang) : DRole → Prop
  | .prim _ => True
  | .inverse r => SafeR L r
  | .star r => SafeR L r
  | .comp r1 r2 => SafeR L r1 ∧ SafeR L r2
  | .restrict r _ => SafeR L r
end

/-! ### Lemmas -/

theorem mrt_cases {L : DLang} {s t u : String} (h : L.mrt s t = some u) : u = s ∨ u = t := by
  simp only [DLang.mrt] at h
  split at h
  · simp only [Option.some.injEq] at h; exact .inl h.symm
  · split at h
    · simp only [Option.some.injEq] at h; exact .inr h.symm
    · cases h

theorem SortedState.disjoint {α : Type} [DecidableEq α] {L : DLang} {S : DState α} {ext : String → Finset α} (h : SortedState L S ext)
    (s t : String) (hr : L.related s t = false) : ∀ x, x ∈ ext s → x ∉ ext t := by
  simp only [DLang.related, Bool.or_eq_false_iff] at hr
  exact h.apart s t hr.1 hr.2

theorem mrt_none {L : DLang} {s t : String} (h : L.mrt s t = none) : L.related s t = false := by
  simp only [DLang.mrt] at h
  split at h
  · cases h
  · split at h
    · cases h
    · rename_i h1 h2
      simp [DLang.related, h1, h2]

theorem mem_denExists {S : DState α} {r c x} : x ∈ denC S (.exists r c) ↔ ∃ y, (x, y) ∈ denR S r ∧ y ∈ denC S c := by
  simp only [denC, Finset.mem_image, Finset.mem_filter, Prod.exists]
  constructor
  · rintro ⟨a, b, ⟨h1, h2⟩, rfl⟩; exact ⟨b, h1, h2⟩
  · rintro ⟨y, h1, h2⟩; exact ⟨x, y, ⟨h1, h2⟩, rfl⟩

theorem mem_denForall {S : DState α} (h : S.Ok) {r c x} :
    x ∈ denC S (.forall r c) ↔ x ∈ S.univ ∧ ∀ y, (x, y) ∈ denR S r → y ∈ denC S c := by
  simp only [denC, Finset.mem_filter]
  refine and_congr_right fun hx => ?_
  have hsub : denC S c ∪ S.univ.filter (fun y => (x, y) ∉ denR S r) ⊆ S.univ :=
    Finset.union_subset (denC_sub S h c) (Finset.filter_subset _ _)
  constructor
  · intro hc y hyr
    have heq := Finset.eq_of_subset_of_card_le hsub (le_of_eq hc)
    have hyU := (Finset.mem_product.1 (denR_sub S h r hyr)).2
    rw [← heq] at hyU
    rcases Finset.mem_union.1 hyU with h' | h'
    · exact h'
    · exact absurd hyr (Finset.mem_filter.1 h').2
  · intro hall
    congr 1
    refine (Finset.Subset.antisymm hsub fun y hy => ?_).symm
    by_cases hr : (x, y) ∈ denR S r
    · exact Finset.mem_union_left _ (hall y hr)
    · exact Finset.mem_union_right _ (Finset.mem_filter.2 ⟨hy, hr⟩)

theorem mem_denEqual {S : DState α} {r1 r2 x} :
    x ∈ denC S (.equal r1 r2) ↔ x ∈ S.univ ∧ ∀ y, (x, y) ∈ denR S r1 ↔ (x, y) ∈ denR S r2 := by
  simp only [denC, Finset.mem_filter]
  refine and_congr_right fun _ => ?_
  rw [Finset.ext_iff]
  refine forall_congr' fun y => ?_
  have aux : ∀ R : Finset (α × α), y ∈ (R.filter fun p => p.1 = x).image Prod.snd ↔ (x, y) ∈ R := by
    intro R
    simp only [Finset.mem_image, Finset.mem_filter, Prod.exists]
    constructor
    · rintro ⟨a, b, ⟨h1, rfl⟩, rfl⟩; exact h1
    · intro h1; exact ⟨x, y, ⟨h1, rfl⟩, rfl⟩
  rw [aux, aux]

theorem mem_denComp {S : DState α} (h : S.Ok) {r1 r2 a y} (hx : (a, y) ∈ denR S (.comp r1 r2)) :
    ∃ b, (a, b) ∈ denR S r1 ∧ (b, y) ∈ denR S r2 := by
  simp only [denR, mem_composeBreak] at hx
  obtain ⟨b, h1, h2⟩ := hx
  exact ⟨b, (h.enum _ _).1 h1, (h.enum _ _).1 (firstMatch_some _ _ _ h2)⟩

/-! ### C63 -/

/-- The full statement of C63. -/
def C63_full : Prop := ∀ (L : DLang) (S : DState Nat) (ext : String → Finset Nat), L.Rooted → SortedState L S ext →
  (∀ c s, sortC L c = some s → denC S c ⊆ ext s) ∧
  ∀ r s, sortR L r = some s → ∀ x y, (x, y) ∈ denR S r → x ∈ ext s.1 ∧ y ∈ ext s.2

/-- C63, proved part, for roles. -/
theorem C63_roles_partial {L : DLang} {S : DState α} {ext : String → Finset α} (h : SortedState L S ext) :
    ∀ r s, SafeR L r → sortR L r = some s → ∀ x y, (x, y) ∈ denR S r → x ∈ ext s.1 ∧ y ∈ ext s.2
  | .prim n, s, _, hs, x, y, hxy => by
    simp only [sortR, Option.some.injEq] at hs
    subst hs
    exact h.role n x y hxy
  | .inverse r, s, hf, hs, x, y, hxy => by
    simp only [sortR] at hs
    cases hr : sortR L r with
    | none => simp [hr] at hs
    | some t =>
      simp only [hr, Option.some.injEq] at hs
      subst hs
      simp only [denR, Finset.mem_image] at hxy
      obtain ⟨p, hp, hpe⟩ := hxy
      obtain ⟨a, b⟩ := p
      simp only [Prod.mk.injEq] at hpe
      obtain ⟨rfl, rfl⟩ := hpe
      exact (C63_roles_partial h r t hf hr _ _ hp).symm
  | .star r, s, hf, hs, x, y, hxy => by
    simp only [denR, C34_transitiveClosure] at hxy
    have ih := C63_roles_partial h r s hf (by simpa [sortR] using hs)
    induction hxy with
    | single h1 => exact ih _ _ h1
    | tail _ h1 ih' => exact ⟨ih'.1, (ih _ _ h1).2⟩
  | .comp r1 r2, s, hf, hs, x, y, hxy => by
    simp only [sortR] at hs
    cases hr1 : sortR L r1 with
    | none => simp [hr1] at hs
    | some t1 =>
      cases hr2 : sortR L r2 with
      | none => simp [hr1, hr2] at hs
      | some t2 =>
        simp only [hr1, hr2, Option.some.injEq] at hs
        subst hs
        obtain ⟨b, h1, h2⟩ := mem_denComp h.ok hxy
        exact ⟨(C63_roles_partial h r1 t1 hf.1 hr1 _ _ h1).1, (C63_roles_partial h r2 t2 hf.2 hr2 _ _ h2).2⟩
  | .restrict r c, s, hf, hs, x, y, hxy => by
    simp only [sortR] at hs
    cases hr : sortR L r with
    | none => simp [hr] at hs
    | some t =>
      cases hc : sortC L c with
      | none => simp [hr, hc] at hs
      | some u =>
        simp only [hr, hc, Option.some.injEq] at hs
        subst hs
        simp only [denR, Finset.mem_filter] at hxy
        exact C63_roles_partial h r t hf hr x y hxy.1

/-- C63, proved part, for concepts: every object that a concept denotes is of the sort of the concept, for concepts without
disjunctions of different sorts and without universal restrictions and equalities of other sorts than `object`. -/
theorem C63_concepts_partial {L : DLang} {S : DState α} {ext : String → Finset α} (h : SortedState L S ext) :
    ∀ c s, SafeC L c → sortC L c = some s → ∀ x, x ∈ denC S c → x ∈ ext s
  | .top, s, _, hs, x, hx => by
    simp only [sortC, Option.some.injEq] at hs; subst hs
    rw [h.object]; exact denC_sub S h.ok _ hx
  | .bot, s, _, hs, x, hx => by simp [denC] at hx
  | .prim n, s, _, hs, x, hx => by
    simp only [sortC, Option.some.injEq] at hs; subst hs
    exact h.concept n hx
  | .not c, s, _, hs, x, hx => by
    simp only [sortC] at hs
    cases hc : sortC L c with
    | none => simp [hc] at hs
    | some t =>
      simp only [hc, Option.some.injEq] at hs; subst hs
      rw [h.object]; exact denC_sub S h.ok _ hx
  | .and c1 c2, s, hf, hs, x, hx => by
    simp only [sortC] at hs
    cases h1 : sortC L c1 with
    | none => simp [h1] at hs
    | some t =>
      cases h2 : sortC L c2 with
      | none => simp [h1, h2] at hs
      | some u =>
        simp only [h1, h2] at hs
        simp only [denC, Finset.mem_inter] at hx
        rcases mrt_cases hs with rfl | rfl
        · exact C63_concepts_partial h c1 _ hf.1 h1 x hx.1
        · exact C63_concepts_partial h c2 _ hf.2 h2 x hx.2
  | .or c1 c2, s, hf, hs, x, hx => by
    simp only [sortC] at hs
    cases h1 : sortC L c1 with
    | none => simp [h1] at hs
    | some t =>
      cases h2 : sortC L c2 with
      | none => simp [h1, h2] at hs
      | some u =>
        have hst := hf.2.2
        rw [h1, h2, Option.some.injEq] at hst
        subst hst
        simp only [h1, h2] at hs
        have hst : s = t := by rcases mrt_cases hs with h | h <;> exact h
        subst hst
        simp only [denC, Finset.mem_union] at hx
        rcases hx with hx | hx
        · exact C63_concepts_partial h c1 _ hf.1 h1 x hx
        · exact C63_concepts_partial h c2 _ hf.2.1 h2 x hx
  | .exists r c, s, hf, hs, x, hx => by
    simp only [sortC] at hs
    cases hr : sortR L r with
    | none => simp [hr] at hs
    | some t =>
      cases hc : sortC L c with
      | none => simp [hr, hc] at hs
      | some u =>
        simp only [hr, hc, Option.some.injEq] at hs
        subst hs
        obtain ⟨y, h1, -⟩ := mem_denExists.1 hx
        exact (C63_roles_partial h r t hf hr x y h1).1
  | .forall r c, s, hf, hs, x, hx => by
    simp only [sortC] at hs
    cases hr : sortR L r with
    | none => simp [hr] at hs
    | some t =>
      cases hc : sortC L c with
      | none => simp [hr, hc] at hs
      | some u =>
        simp only [hr, hc, Option.some.injEq] at hs
        subst hs
        rw [hf t hr, h.object]
        exact denC_sub S h.ok _ hx
  | .equal r1 r2, s, hf, hs, x, hx => by
    simp only [sortC] at hs
    cases hr : sortR L r1 with
    | none => simp [hr] at hs
    | some t =>
      cases hc : sortR L r2 with
      | none => simp [hr, hc] at hs
      | some u =>
        simp only [hr, hc] at hs
        have := hf t u hr hc
        have hs' : s = "object" := by rcases mrt_cases hs with h | h <;> simp [h, this]
        rw [hs', h.object]
        exact denC_sub S h.ok _ hx

/-! ### A language with blocks and tables -/

/-- `block` and `table` are subsorts of `object`; the concept `clear` is of sort `block`, `red` of sort `object`, `t` of sort
`table`; the role `on` is from `block` to `table`, `r` from `block` to `block`, `s` from `table` to `table`. -/
def exDLang : DLang where
  isSub := fun s t => t == "object" || s == t
  cs := fun n => if n = "clear" then "block" else if n = "t" then "table" else "object"
  rs := fun n => if n = "on" then ("block", "table") else if n = "r" then ("block", "block") else ("table", "table")

/-- Blocks 1, 2 and the table 3; `on(1, 3)`, `r(1, 1)`, `s(3, 3)`, `red(3)`, `clear(2)`. -/
noncomputable def exDState : DState Nat where
  univ := {1, 2, 3}
  concept := fun n => if n = "clear" then {2} else if n = "red" then {3} else ∅
  role := fun n => if n = "on" then {(1, 3)} else if n = "r" then {(1, 1)} else if n = "s" then {(3, 3)} else ∅
  enum := Finset.toList

/-- The objects of each sort. -/
def exDExt (s : String) : Finset Nat := if s = "object" then {1, 2, 3} else if s = "block" then {1, 2} else if s = "table" then {3} else ∅

theorem exDLang_rooted : exDLang.Rooted := fun s => by simp [exDLang]

theorem exDState_sorted : SortedState exDLang exDState exDExt where
  ok := {
    concept := fun n => by
      simp only [exDState]
      split
      · decide
      · split <;> decide
    role := fun n => by
      simp only [exDState]
      split
      · decide
      · split
        · decide
        · split <;> decide
    enum := fun r p => Finset.mem_toList }
  object := rfl
  sub := fun s t h => by
    simp only [exDLang, Bool.or_eq_true, beq_iff_eq] at h
    rcases h with rfl | rfl
    · simp only [exDExt]
      split
      · decide
      · split
        · decide
        · split <;> decide
    · exact Finset.Subset.refl _
  apart := fun s t ha hb x hx => by
    simp only [exDLang, Bool.or_eq_false_iff, beq_eq_false_iff_ne, ne_eq] at ha hb
    have h := And.intro ha hb
    simp only [exDExt] at hx ⊢
    split at hx
    · exact absurd ‹_› h.2.1
    · split at hx
      · rename_i hs
        subst hs
        rw [if_neg h.1.1, if_neg (fun e => h.2.2 e)]
        split
        · intro h3; simp only [Finset.mem_insert, Finset.mem_singleton] at hx h3; omega
        · simp
      · split at hx
        · rename_i hs
          subst hs
          rw [if_neg h.1.1]
          split
          · intro h3; simp only [Finset.mem_insert, Finset.mem_singleton] at hx h3; omega
          · rw [if_neg (fun e => h.2.2 e)]; simp
        · simp at hx
  concept := fun n => by
    simp only [exDState, exDLang]
    split
    · decide
    · split
      · rename_i h; subst h; decide
      · simp
  role := fun n x y h => by
    simp only [exDState] at h
    simp only [exDLang]
    split at h
    · rename_i hn; subst hn
      simp only [Finset.mem_singleton, Prod.mk.injEq] at h
      obtain ⟨rfl, rfl⟩ := h
      decide
    · split at h
      · rename_i hn; subst hn
        simp only [Finset.mem_singleton, Prod.mk.injEq] at h
        obtain ⟨rfl, rfl⟩ := h
        decide
      · split at h
        · rename_i hn; subst hn
          simp only [Finset.mem_singleton, Prod.mk.injEq] at h
          obtain ⟨rfl, rfl⟩ := h
          decide
        · simp at h

example : SafeC exDLang (.and (.exists (.star (.prim "on")) (.forall (.prim "r") (.prim "red"))) (.prim "clear")) ∧
    sortC exDLang (.and (.exists (.star (.prim "on")) (.forall (.prim "r") (.prim "red"))) (.prim "clear")) = some "block" := by
  simp [SafeC, SafeR, sortC, sortR, exDLang, DLang.mrt]

/-- C63 fails for universal restrictions: a table is among the "blocks" all of whose `r`-successors are red. -/
theorem C63_forall_refuted : sortC exDLang (.forall (.prim "r") (.prim "red")) = some "block" ∧
    3 ∈ denC exDState (.forall (.prim "r") (.prim "red")) ∧ 3 ∉ exDExt "block" := by
  refine ⟨rfl, (mem_denForall exDState_sorted.ok).2 ⟨by simp [exDState], fun y hy => ?_⟩, by decide⟩
  simp [denR, exDState] at hy

/-- C63 fails for equalities of roles: a table has the same (no) successors under both roles. -/
theorem C63_equal_refuted : sortC exDLang (.equal (.prim "r") (.prim "on")) = some "block" ∧
    3 ∈ denC exDState (.equal (.prim "r") (.prim "on")) ∧ 3 ∉ exDExt "block" := by
  refine ⟨rfl, mem_denEqual.2 ⟨by simp [exDState], fun y => ?_⟩, by decide⟩
  simp [denR, exDState]

/-- C63 fails for disjunctions: the sort is the smaller one of the two. -/
theorem C63_or_refuted : sortC exDLang (.or (.prim "clear") (.prim "red")) = some "block" ∧
    3 ∈ denC exDState (.or (.prim "clear") (.prim "red")) ∧ 3 ∉ exDExt "block" := by
  refine ⟨rfl, ?_, by decide⟩
  simp [denC, exDState]

theorem C63_refuted : ¬ C63_full := fun h =>
  C63_or_refuted.2.2 ((h exDLang exDState exDExt exDLang_rooted exDState_sorted).1 _ _ C63_or_refuted.1 C63_or_refuted.2.1)

/-! ### C64 -/

/-- The concept denotes nothing in any state that respects the sorts. -/
def EmptyConceptIn (L : DLang) (c : DConcept) : Prop :=
  ∀ (α : Type) [DecidableEq α] (S : DState α) (ext : String → Finset α), SortedState L S ext → denC S c = ∅

/-- There is a concept of smaller size with the same denotation in all states that respect the sorts. -/
def SmallerConcept (L : DLang) (c : DConcept) : Prop :=
  ∃ c', (sortC L c').isSome = true ∧ sizeC c' < sizeC c ∧
    ∀ (α : Type) [DecidableEq α] (S : DState α) (ext : String → Finset α), SortedState L S ext → denC S c' = denC S c

/-- The role denotes nothing in any state that respects the sorts. -/
def EmptyRoleIn (L : DLang) (r : DRole) : Prop :=
  ∀ (α : Type) [DecidableEq α] (S : DState α) (ext : String → Finset α), SortedState L S ext → denR S r = ∅

/-- There is a different role, not larger, with the same denotation in all states that respect the sorts. -/
def SimplerRole (L : DLang) (r : DRole) : Prop :=
  ∃ r', r' ≠ r ∧ (sortR L r').isSome = true ∧ sizeR r' ≤ sizeR r ∧
    ∀ (α : Type) [DecidableEq α] (S : DState α) (ext : String → Finset α), SortedState L S ext → denR S r' = denR S r

/-- The full statement of C64, for concepts: the factory returns the concept it is asked for, or nothing, and in this case
the concept is empty or there is a smaller one for it. `same` is the value of the code's test `c1 == c2`, see C105. -/
def C64_full (L : DLang) : Prop :=
  (∀ r c, (sortR L r).isSome → (sortC L c).isSome → createExists L r c = .ok (some (.exists r c)) ∨
    (createExists L r c = .ok none ∧ (EmptyConceptIn L (.exists r c) ∨ SmallerConcept L (.exists r c)))) ∧
  (∀ c, (sortC L c).isSome → createNot L c = .ok (some (.not c)) ∨
    (createNot L c = .ok none ∧ (EmptyConceptIn L (.not c) ∨ SmallerConcept L (.not c)))) ∧
  (∀ r c, (sortR L r).isSome → (sortC L c).isSome → createForall L r c = .ok (some (.forall r c)) ∨
    (createForall L r c = .ok none ∧ (EmptyConceptIn L (.forall r c) ∨ SmallerConcept L (.forall r c)))) ∧
  (∀ same c1 c2, (same = true → c1 = c2) → (sortC L c1).isSome → (sortC L c2).isSome → createAnd L same c1 c2 = .ok (some (.and c1 c2)) ∨
    (createAnd L same c1 c2 = .ok none ∧ (EmptyConceptIn L (.and c1 c2) ∨ SmallerConcept L (.and c1 c2)))) ∧
  (∀ same c1 c2, (same = true → c1 = c2) → (sortC L c1).isSome → (sortC L c2).isSome → createOr L same c1 c2 = .ok (some (.or c1 c2)) ∨
    (createOr L same c1 c2 = .ok none ∧ (EmptyConceptIn L (.or c1 c2) ∨ SmallerConcept L (.or c1 c2)))) ∧
  (∀ r1 r2, (sortR L r1).isSome → (sortR L r2).isSome → createEqual L r1 r2 = .ok (some (.equal r1 r2)) ∨
    (createEqual L r1 r2 = .ok none ∧ (EmptyConceptIn L (.equal r1 r2) ∨ SmallerConcept L (.equal r1 r2))))

theorem sizeR_pos : ∀ r, 0 < sizeR r
  | .prim _ => by simp [sizeR]
  | .inverse r => by simp only [sizeR]; omega
  | .star r => by simp only [sizeR]; omega
  | .comp r1 r2 => by simp only [sizeR]; omega
  | .restrict r c => by simp only [sizeR]; omega

theorem sizeC_pos {c : DConcept} (h1 : c ≠ .top) (h2 : c ≠ .bot) : 0 < sizeC c := by
  cases c <;> simp only [sizeC] <;> first | omega | exact absurd rfl h1 | exact absurd rfl h2

/-- C64, proved part: existential restrictions, for arguments whose sorts are right (C63). -/
theorem C64_exists_partial (L : DLang) (r : DRole) (c : DConcept) (hr : (sortR L r).isSome) (hc : (sortC L c).isSome)
    (fr : SafeR L r) (fc : SafeC L c) : createExists L r c = .ok (some (.exists r c)) ∨
    (createExists L r c = .ok none ∧ (EmptyConceptIn L (.exists r c) ∨ SmallerConcept L (.exists r c))) := by
  obtain ⟨s, hs⟩ := Option.isSome_iff_exists.1 hr
  obtain ⟨t, ht⟩ := Option.isSome_iff_exists.1 hc
  simp only [createExists, hs, ht]
  split
  · rename_i hb
    subst hb
    refine .inr ⟨rfl, .inl fun α _ S ext h => ?_⟩
    ext x; rw [mem_denExists]; simp [denC]
  · split
    · rename_i hrel
      refine .inr ⟨rfl, .inl fun α _ S ext h => ?_⟩
      refine Finset.eq_empty_of_forall_notMem fun x hx => ?_
      obtain ⟨y, h1, h2⟩ := mem_denExists.1 hx
      exact h.disjoint _ _ hrel y (C63_roles_partial h r s fr hs x y h1).2 (C63_concepts_partial h c t fc ht y h2)
    · split
      · rename_i hres
        refine .inr ⟨rfl, .inr ?_⟩
        obtain ⟨h1, rfl⟩ := hres
        cases r with
        | restrict r' c' =>
          have hs' := hs
          simp only [sortR] at hs'
          refine ⟨.exists r' c', ?_, by simp only [sizeC, sizeR]; omega, fun α _ S ext h => ?_⟩
          · cases h1 : sortR L r' with
            | none => simp [h1] at hs'
            | some a => cases h2 : sortC L c' with
              | none => simp [h1, h2] at hs'
              | some b => simp [sortC, h1, h2]
          · ext x
            rw [mem_denExists, mem_denExists]
            simp only [denR, denC, Finset.mem_filter]
            constructor
            · rintro ⟨y, h1, h2⟩; exact ⟨y, ⟨h1, h2⟩, denC_sub S h.ok _ h2⟩
            · rintro ⟨y, ⟨h1, h2⟩, _⟩; exact ⟨y, h1, h2⟩
        | prim => simp [DRole.isRestrict] at h1
        | inverse => simp [DRole.isRestrict] at h1
        | star => simp [DRole.isRestrict] at h1
        | comp => simp [DRole.isRestrict] at h1
      · exact .inl rfl

/-- C64: negations. -/
theorem C64_not (L : DLang) (c : DConcept) (hc : (sortC L c).isSome) : createNot L c = .ok (some (.not c)) ∨
    (createNot L c = .ok none ∧ SmallerConcept L (.not c)) := by
  obtain ⟨t, ht⟩ := Option.isSome_iff_exists.1 hc
  simp only [createNot, ht]
  split
  · rename_i h1
    refine .inr ⟨rfl, ?_⟩
    cases c with
    | not c =>
      simp only [sortC] at ht
      refine ⟨c, ?_, by simp only [sizeC]; omega, fun α _ S ext h => ?_⟩
      · cases h2 : sortC L c with
        | none => simp [h2] at ht
        | some _ => rfl
      · ext x
        simp only [denC, Finset.mem_sdiff]
        constructor
        · exact fun hx => ⟨denC_sub S h.ok _ hx, fun h' => h'.2 hx⟩
        · intro hx
          by_contra hn
          exact hx.2 ⟨hx.1, hn⟩
    | _ => simp [DConcept.isNot] at h1
  · exact .inl rfl

/-- C64, proved part: universal restrictions, for arguments whose sorts are right (C63). -/
theorem C64_forall_partial (L : DLang) (hL : L.Rooted) (r : DRole) (c : DConcept) (hr : (sortR L r).isSome) (hc : (sortC L c).isSome)
    (fr : SafeR L r) (fc : SafeC L c) : createForall L r c = .ok (some (.forall r c)) ∨
    (createForall L r c = .ok none ∧ SmallerConcept L (.forall r c)) := by
  obtain ⟨s, hs⟩ := Option.isSome_iff_exists.1 hr
  obtain ⟨t, ht⟩ := Option.isSome_iff_exists.1 hc
  simp only [createForall, hs, ht]
  split
  · rename_i hb
    subst hb
    refine .inr ⟨rfl, .top, rfl, by simp only [sizeC]; omega, fun α _ S ext h => ?_⟩
    ext x
    rw [mem_denForall h.ok]
    simp only [denC]
    exact ⟨fun hx => ⟨hx, fun y hy => (Finset.mem_product.1 (denR_sub S h.ok r hy)).2⟩, fun hx => hx.1⟩
  · rename_i htop
    split
    · rename_i hrel
      refine .inr ⟨rfl, .forall r .bot, by simp [sortC, hs], ?_, fun α _ S ext h => ?_⟩
      · have hb : c ≠ .bot := by
          rintro rfl
          simp only [sortC, Option.some.injEq] at ht
          subst ht
          simp [DLang.related, hL s.2] at hrel
        have := sizeC_pos htop hb
        simp only [sizeC]; omega
      · ext x
        rw [mem_denForall h.ok, mem_denForall h.ok]
        refine and_congr_right fun _ => forall_congr' fun y => imp_congr_right fun hy => ?_
        have h1 := (C63_roles_partial h r s fr hs x y hy).2
        constructor
        · intro h2; simp [denC] at h2
        · intro h2; exact absurd (C63_concepts_partial h c t fc ht y h2) (h.disjoint _ _ hrel y h1)
    · exact .inl rfl

/-- C64, proved part: conjunctions, for arguments whose sorts are right (C63). -/
theorem C64_and_partial (L : DLang) (same : Bool) (c1 c2 : DConcept) (hsame : same = true → c1 = c2) (h1 : (sortC L c1).isSome) (h2 : (sortC L c2).isSome)
    (f1 : SafeC L c1) (f2 : SafeC L c2) : createAnd L same c1 c2 = .ok (some (.and c1 c2)) ∨
    (createAnd L same c1 c2 = .ok none ∧ (EmptyConceptIn L (.and c1 c2) ∨ SmallerConcept L (.and c1 c2))) := by
  obtain ⟨s, hs⟩ := Option.isSome_iff_exists.1 h1
  obtain ⟨t, ht⟩ := Option.isSome_iff_exists.1 h2
  simp only [createAnd, hs, ht]
  split
  · rename_i he
    have he := hsame he
    subst he
    exact .inr ⟨rfl, .inr ⟨c1, h1, by simp only [sizeC]; omega, fun α _ S ext h => by simp [denC]⟩⟩
  · split
    · rename_i hb
      refine .inr ⟨rfl, ?_⟩
      rcases hb with (rfl | rfl) | (rfl | rfl)
      · exact .inr ⟨c2, h2, by simp only [sizeC]; omega, fun α _ S ext h => by
          simp only [denC]; exact (Finset.inter_eq_right.2 (denC_sub S h.ok c2)).symm⟩
      · exact .inl fun α _ S ext h => by simp [denC]
      · exact .inr ⟨c1, h1, by simp only [sizeC]; omega, fun α _ S ext h => by
          simp only [denC]; exact (Finset.inter_eq_left.2 (denC_sub S h.ok c1)).symm⟩
      · exact .inl fun α _ S ext h => by simp [denC]
    · cases hm : L.mrt s t with
      | some u => exact .inl rfl
      | none =>
        refine .inr ⟨rfl, .inl fun α _ S ext h => ?_⟩
        refine Finset.eq_empty_of_forall_notMem fun x hx => ?_
        simp only [denC, Finset.mem_inter] at hx
        exact h.disjoint _ _ (mrt_none hm) x (C63_concepts_partial h c1 s f1 hs x hx.1) (C63_concepts_partial h c2 t f2 ht x hx.2)

/-- C64, proved part: disjunctions of concepts whose sorts are related. -/
theorem C64_or_partial (L : DLang) (same : Bool) (c1 c2 : DConcept) (hsame : same = true → c1 = c2) (s t : String) (hs : sortC L c1 = some s) (ht : sortC L c2 = some t)
    (hrel : L.related s t = true) : createOr L same c1 c2 = .ok (some (.or c1 c2)) ∨
    (createOr L same c1 c2 = .ok none ∧ SmallerConcept L (.or c1 c2)) := by
  simp only [createOr, hs, ht]
  split
  · rename_i he
    have he := hsame he
    subst he
    exact .inr ⟨rfl, c1, by simp [hs], by simp only [sizeC]; omega, fun α _ S ext h => by simp [denC]⟩
  · split
    · rename_i hb
      refine .inr ⟨rfl, ?_⟩
      rcases hb with (rfl | rfl) | (rfl | rfl)
      · exact ⟨.top, rfl, by simp only [sizeC]; omega, fun α _ S ext h => by
          simp only [denC]; exact (Finset.union_eq_left.2 (denC_sub S h.ok c2)).symm⟩
      · exact ⟨c2, by simp [ht], by simp only [sizeC]; omega, fun α _ S ext h => by simp [denC]⟩
      · exact ⟨.top, rfl, by simp only [sizeC]; omega, fun α _ S ext h => by
          simp only [denC]; exact (Finset.union_eq_right.2 (denC_sub S h.ok c1)).symm⟩
      · exact ⟨c1, by simp [hs], by simp only [sizeC]; omega, fun α _ S ext h => by simp [denC]⟩
    · cases hm : L.mrt s t with
      | some u => exact .inl rfl
      | none => rw [mrt_none hm] at hrel; cases hrel

/-- C64, proved part: equalities of roles: those that are pruned denote the objects that have no successors by either role,
which another, larger concept expresses. -/
theorem C64_equal_partial (L : DLang) (r1 r2 : DRole) (s t : String × String) (hs : sortR L r1 = some s) (ht : sortR L r2 = some t)
    (f1 : SafeR L r1) (f2 : SafeR L r2) : createEqual L r1 r2 = .ok (some (.equal r1 r2)) ∨
    (createEqual L r1 r2 = .ok none ∧ ∀ (α : Type) [DecidableEq α] (S : DState α) (ext : String → Finset α), SortedState L S ext →
      denC S (.equal r1 r2) = denC S (.and (.not (.exists r1 .top)) (.not (.exists r2 .top)))) := by
  simp only [createEqual, hs, ht]
  cases hm : L.mrt s.1 t.1 with
  | some u => exact .inl rfl
  | none =>
    refine .inr ⟨rfl, fun α _ S ext h => ?_⟩
    ext x
    have e : ∀ r, x ∈ denC S (.not (.exists r .top)) ↔ x ∈ S.univ ∧ ∀ y, (x, y) ∉ denR S r := by
      intro r
      have : denC S (.not (.exists r .top)) = S.univ \ denC S (.exists r .top) := by simp only [denC]
      rw [this, Finset.mem_sdiff, mem_denExists]
      refine and_congr_right fun _ => ?_
      simp only [denC, not_exists, not_and]
      exact forall_congr' fun y => ⟨fun h1 h2 => h1 h2 (Finset.mem_product.1 (denR_sub S h.ok r h2)).2, fun h1 h2 => absurd h2 h1⟩
    have e2 : denC S (.and (.not (.exists r1 .top)) (.not (.exists r2 .top))) =
        denC S (.not (.exists r1 .top)) ∩ denC S (.not (.exists r2 .top)) := by simp only [denC]
    rw [mem_denEqual, e2, Finset.mem_inter, e, e]
    constructor
    · rintro ⟨hx, hy⟩
      have : ∀ y, (x, y) ∉ denR S r1 := fun y h1 =>
        h.disjoint _ _ (mrt_none hm) x (C63_roles_partial h r1 s f1 hs x y h1).1 (C63_roles_partial h r2 t f2 ht x y ((hy y).1 h1)).1
      exact ⟨⟨hx, this⟩, hx, fun y h2 => this y ((hy y).2 h2)⟩
    · rintro ⟨⟨hx, h1⟩, -, h2⟩
      exact ⟨hx, fun y => ⟨fun h => absurd h (h1 y), fun h => absurd h (h2 y)⟩⟩

/-- C64, proved part: restrictions of roles, for arguments whose sorts are right (C63). -/
theorem C64_restrict_partial (L : DLang) (r : DRole) (c : DConcept) (hr : (sortR L r).isSome) (hc : (sortC L c).isSome)
    (fr : SafeR L r) (fc : SafeC L c) (fi : ∀ r' c', r = .restrict r' c' → SafeC L c') : createRestrict L r c = .ok (some (.restrict r c)) ∨
    (createRestrict L r c = .ok none ∧ (EmptyRoleIn L (.restrict r c) ∨ SimplerRole L (.restrict r c))) := by
  obtain ⟨s, hs⟩ := Option.isSome_iff_exists.1 hr
  obtain ⟨t, ht⟩ := Option.isSome_iff_exists.1 hc
  simp only [createRestrict, hs, ht]
  split
  · rename_i hrel
    refine .inr ⟨rfl, .inl fun α _ S ext h => ?_⟩
    refine Finset.eq_empty_of_forall_notMem fun p hp => ?_
    obtain ⟨x, y⟩ := p
    simp only [denR, Finset.mem_filter] at hp
    exact h.disjoint _ _ hrel y (C63_roles_partial h r s fr hs x y hp.1).2 (C63_concepts_partial h c t fc ht y hp.2)
  · split
    · rename_i hb
      refine .inr ⟨rfl, ?_⟩
      rcases hb with rfl | rfl
      · refine .inr ⟨r, ?_, hr, by simp only [sizeR]; omega, fun α _ S ext h => ?_⟩
        · intro he
          have := congrArg sizeR he
          simp only [sizeR] at this
          omega
        · ext p
          simp only [denR, Finset.mem_filter]
          rw [show denC S .top = S.univ by rw [denC]]
          exact ⟨fun hp => ⟨hp, (Finset.mem_product.1 (denR_sub S h.ok r hp)).2⟩, fun hp => hp.1⟩
      · exact .inl fun α _ S ext h => by simp [denR, denC]
    · split
      · rename_i hres
        refine .inr ⟨rfl, ?_⟩
        cases r with
        | restrict r' c' =>
          have hs' := hs
          simp only [sortR] at hs'
          cases h1 : sortR L r' with
          | none => simp [h1] at hs'
          | some a => cases h2 : sortC L c' with
            | none => simp [h1, h2] at hs'
            | some b =>
              cases hm : L.mrt b t with
              | some u =>
                refine .inr ⟨.restrict r' (.and c' c), ?_, by simp [sortR, sortC, h1, h2, ht, hm], by simp only [sizeR, sizeC]; omega,
                  fun α _ S ext h => ?_⟩
                · intro he
                  simp only [DRole.restrict.injEq] at he
                  have := congrArg sizeR he.1
                  simp only [sizeR] at this
                  omega
                · ext p
                  simp only [denR, denC, Finset.mem_filter, Finset.mem_inter, and_assoc]
              | none =>
                refine .inl fun α _ S ext h => ?_
                refine Finset.eq_empty_of_forall_notMem fun p hp => ?_
                simp only [denR, Finset.mem_filter] at hp
                exact h.disjoint _ _ (mrt_none hm) p.2 (C63_concepts_partial h c' b (fi _ _ rfl) h2 p.2 hp.1.2)
                  (C63_concepts_partial h c t fc ht p.2 hp.2)
        | prim => simp [DRole.isRestrict] at hres
        | inverse => simp [DRole.isRestrict] at hres
        | star => simp [DRole.isRestrict] at hres
        | comp => simp [DRole.isRestrict] at hres
      · exact .inl rfl

mutual
/-- All the roles that occur in a concept, with repetitions. -/
def rolesInC : DConcept → List DRole
  | .top => []
  | .bot => []
  | .prim _ => []
  | .not c => rolesInC c
  | .and c1 c2 => rolesInC c1 ++ rolesInC c2
  | .or c1 c2 => rolesInC c1 ++ rolesInC c2
  | .exists r c => rolesInR r ++ rolesInC c
  | .forall r c => rolesInR r ++ rolesInC c
  | .equal r1 r2 => rolesInR r1 ++ rolesInR r2
/-- All the roles that occur in a role, with repetitions. -/
def rolesInR : DRole → List DRole
  | .prim n => [.prim n]
  | .inverse r => .inverse r :: rolesInR r
  | .star r => .star r :: rolesInR r
  | .comp r1 r2 => .comp r1 r2 :: (rolesInR r1 ++ rolesInR r2)
  | .restrict r c => .restrict r c :: (rolesInR r ++ rolesInC c)
end

/-- The role is a composition. -/
def DRole.IsComposition (r : DRole) : Prop := ∃ a b, r = .comp a b

open Classical in
/-- The number of compositions that occur in a list of roles. -/
noncomputable def compositions (l : List DRole) : Nat := (l.filter (fun r => decide r.IsComposition)).length

mutual
theorem compsC_count : ∀ c, compsC c = compositions (rolesInC c)
  | .top => by simp [compsC, rolesInC, compositions]
  | .bot => by simp [compsC, rolesInC, compositions]
  | .prim _ => by simp [compsC, rolesInC, compositions]
  | .not c => by simp only [compsC, rolesInC, compsC_count c]
  | .and c1 c2 => by simp only [compsC, rolesInC, compsC_count c1, compsC_count c2, compositions, List.filter_append, List.length_append]
  | .or c1 c2 => by simp only [compsC, rolesInC, compsC_count c1, compsC_count c2, compositions, List.filter_append, List.length_append]
  | .exists r c => by simp only [compsC, rolesInC, compsR_count r, compsC_count c, compositions, List.filter_append, List.length_append]
  | .forall r c => by simp only [compsC, rolesInC, compsR_count r, compsC_count c, compositions, List.filter_append, List.length_append]
  | .equal r1 r2 => by simp only [compsC, rolesInC, compsR_count r1, compsR_count r2, compositions, List.filter_append, List.length_append]
theorem compsR_count : ∀ r, compsR r = compositions (rolesInR r)
  | .prim _ => by simp [compsR, rolesInR, compositions, DRole.IsComposition]
  | .inverse r => by
    have : ¬ (DRole.inverse r).IsComposition := fun ⟨_, _, h⟩ => by cases h
    simp only [compsR, rolesInR, compsR_count r, compositions, List.filter_cons, this, decide_false, Bool.false_eq_true, if_false]
  | .star r => by
    have : ¬ (DRole.star r).IsComposition := fun ⟨_, _, h⟩ => by cases h
    simp only [compsR, rolesInR, compsR_count r, compositions, List.filter_cons, this, decide_false, Bool.false_eq_true, if_false]
  | .comp r1 r2 => by
    have : (DRole.comp r1 r2).IsComposition := ⟨_, _, rfl⟩
    simp only [compsR, rolesInR, compsR_count r1, compsR_count r2, compositions, List.filter_cons, this, decide_true, if_true,
      List.filter_append, List.length_append, List.length_cons]
    omega
  | .restrict r c => by
    have : ¬ (DRole.restrict r c).IsComposition := fun ⟨_, _, h⟩ => by cases h
    simp only [compsR, rolesInR, compsR_count r, compsC_count c, compositions, List.filter_cons, this, decide_false, Bool.false_eq_true,
      if_false, List.filter_append, List.length_append]
end

/-- C64, proved part: compositions, for arguments whose sorts are right (C63); those with more than two compositions are pruned
by design. -/
theorem C64_comp_partial (L : DLang) (r1 r2 : DRole) (h1 : (sortR L r1).isSome) (h2 : (sortR L r2).isSome)
    (f1 : SafeR L r1) (f2 : SafeR L r2) : createComp L r1 r2 = .ok (some (.comp r1 r2)) ∨
    (createComp L r1 r2 = .ok none ∧ (EmptyRoleIn L (.comp r1 r2) ∨ 2 < compositions (rolesInR (.comp r1 r2)))) := by
  rw [← compsR_count]
  obtain ⟨s, hs⟩ := Option.isSome_iff_exists.1 h1
  obtain ⟨t, ht⟩ := Option.isSome_iff_exists.1 h2
  simp only [createComp, hs, ht]
  split
  · rename_i hrel
    refine .inr ⟨rfl, .inl fun α _ S ext h => ?_⟩
    refine Finset.eq_empty_of_forall_notMem fun p hp => ?_
    obtain ⟨x, y⟩ := p
    obtain ⟨b, e1, e2⟩ := mem_denComp h.ok hp
    exact h.disjoint _ _ hrel b (C63_roles_partial h r1 s f1 hs x b e1).2 (C63_roles_partial h r2 t f2 ht b y e2).1
  · split
    · rename_i hb; exact .inr ⟨rfl, .inr hb⟩
    · exact .inl rfl

/-! ### Refutations of C64 -/

/-- The disjunction of concepts of unrelated sorts raises an exception. -/
theorem C64_or_refuted : createOr exDLang false (.prim "clear") (.prim "t") = .error .assertion ∧
    (sortC exDLang (.prim "clear")).isSome = true ∧ (sortC exDLang (.prim "t")).isSome = true := ⟨by decide, rfl, rfl⟩

/-- Because of the wrong sort of disjunctions (C63), a concept that is not empty is pruned for type inconsistency: the blocks
that are on something clear or red. -/
theorem C64_exists_refuted : createExists exDLang (.prim "on") (.or (.prim "clear") (.prim "red")) = .ok none ∧
    1 ∈ denC exDState (.exists (.prim "on") (.or (.prim "clear") (.prim "red"))) := by
  refine ⟨by decide, mem_denExists.2 ⟨3, by simp [denR, exDState], by simp [denC, exDState]⟩⟩

/-- C64 is false as stated. -/
theorem C64_refuted : ¬ C64_full exDLang := fun h => by
  rcases h.2.2.2.2.1 false (.prim "clear") (.prim "t") (fun h => by cases h) rfl rfl with h | h
  · rw [C64_or_refuted.1] at h; cases h
  · rw [C64_or_refuted.1] at h; cases h.1

/-! ### The hypotheses of the proved parts are met, both by elements that are built and by pruned ones -/

example : createExists exDLang (.prim "on") (.prim "clear") = .ok none ∧ createExists exDLang (.prim "on") (.prim "t") =
    .ok (some (.exists (.prim "on") (.prim "t"))) ∧ (sortR exDLang (.prim "on")).isSome = true ∧
    SafeR exDLang (.prim "on") ∧ SafeC exDLang (.prim "clear") ∧ SafeC exDLang (.prim "t") :=
  ⟨by decide, by decide, rfl, by simp [SafeR], by simp [SafeC], by simp [SafeC]⟩

example : createForall exDLang (.prim "on") (.prim "clear") = .ok none ∧ createNot exDLang (.not (.prim "clear")) = .ok none ∧
    createAnd exDLang false (.prim "clear") (.prim "t") = .ok none ∧ createOr exDLang false (.prim "clear") .top = .ok none ∧
    createOr exDLang false (.prim "clear") (.prim "red") = .ok (some (.or (.prim "clear") (.prim "red"))) ∧
    createEqual exDLang (.prim "r") (.prim "s") = .ok none ∧ createRestrict exDLang (.restrict (.prim "on") (.prim "red")) (.prim "t") = .ok none ∧
    createComp exDLang (.prim "on") (.prim "on") = .ok none ∧ createComp exDLang (.prim "r") (.prim "on") = .ok (some (.comp (.prim "r") (.prim "on"))) := by
  decide

end Tarski

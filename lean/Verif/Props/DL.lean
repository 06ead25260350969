import Verif.DL
import Verif.Props.Algorithms
import Mathlib.Data.Finset.Dedup
/-! C36 and C37: description-logic denotations and features. -/
namespace Tarski
variable {α : Type} [DecidableEq α]

mutual
/-- Standard semantics of concepts. -/
def CSem (S : DState α) : DConcept → α → Prop
  | .top, x => x ∈ S.univ
  | .bot, _ => False
  | .prim n, x => x ∈ S.concept n
  | .not c, x => x ∈ S.univ ∧ ¬ CSem S c x
  | .and c1 c2, x => CSem S c1 x ∧ CSem S c2 x
  | .or c1 c2, x => CSem S c1 x ∨ CSem S c2 x
  | .exists r c, x => ∃ y, RSem S r x y ∧ CSem S c y
  | .forall r c, x => x ∈ S.univ ∧ ∀ y, RSem S r x y → CSem S c y
  | .equal r1 r2, x => x ∈ S.univ ∧ ∀ y, RSem S r1 x y ↔ RSem S r2 x y
/-- Standard semantics of roles; the star is the transitive closure. -/
def RSem (S : DState α) : DRole → α → α → Prop
  | .prim n, x, y => (x, y) ∈ S.role n
  | .inverse r, x, y => RSem S r y x
  | .star r, x, y => Relation.TransGen (RSem S r) x y
  | .comp r1 r2, x, y => ∃ z, RSem S r1 x z ∧ RSem S r2 z y
  | .restrict r c, x, y => RSem S r x y ∧ CSem S c y
end

/-- The contract of the caller's model object: primitive denotations are over the universe, and iterating over a set
yields its elements. -/
structure DState.Ok (S : DState α) : Prop where
  concept : ∀ n, S.concept n ⊆ S.univ
  role : ∀ n, S.role n ⊆ S.univ ×ˢ S.univ
  enum : ∀ r p, p ∈ S.enum r ↔ p ∈ r

mutual
/-- No composition occurs. -/
def noCompC : DConcept → Prop
  | .top => True
  | .bot => True
  | .prim _ => True
  | .not c => noCompC c
  | .and c1 c2 => noCompC c1 ∧ noCompC c2
  | .or c1 c2 => noCompC c1 ∧ noCompC c2
  | .exists r c => noCompR r ∧ noCompC c
  | .forall r c => noCompR r ∧ noCompC c
  | .equal r1 r2 => noCompR r1 ∧ noCompR r2
def noCompR : DRole → Prop
  | .prim _ => True
  | .inverse r => noCompR r
  | .star r => noCompR r
  | .comp _ _ => False
  | .restrict r c => noCompR r ∧ noCompC c
end

mutual
/-- The second role of every composition relates each object to at most one object. -/
def funCompC (S : DState α) : DConcept → Prop
  | .top => True
  | .bot => True
  | .prim _ => True
  | .not c => funCompC S c
  | .and c1 c2 => funCompC S c1 ∧ funCompC S c2
  | .or c1 c2 => funCompC S c1 ∧ funCompC S c2
  | .exists r c => funCompR S r ∧ funCompC S c
  | .forall r c => funCompR S r ∧ funCompC S c
  | .equal r1 r2 => funCompR S r1 ∧ funCompR S r2
def funCompR (S : DState α) : DRole → Prop
  | .prim _ => True
  | .inverse r => funCompR S r
  | .star r => funCompR S r
  | .comp r1 r2 => funCompR S r1 ∧ funCompR S r2 ∧ ∀ x y z, RSem S r2 x y → RSem S r2 x z → y = z
  | .restrict r c => funCompR S r ∧ funCompC S c
end

theorem firstMatch_some (b : α) : ∀ (l : List (α × α)) y, firstMatch b l = some y → (b, y) ∈ l := by
  intro l
  induction l with
  | nil => intro y h; cases h
  | cons p l ih =>
    obtain ⟨x, z⟩ := p
    intro y h
    simp only [firstMatch] at h
    split at h
    · rename_i e; cases h; subst e; simp
    · exact List.mem_cons_of_mem _ (ih y h)

theorem firstMatch_isSome (b : α) : ∀ (l : List (α × α)) y, (b, y) ∈ l → ∃ z, firstMatch b l = some z := by
  intro l
  induction l with
  | nil => intro y h; cases h
  | cons p l ih =>
    obtain ⟨x, z⟩ := p
    intro y h
    simp only [firstMatch]
    split
    · exact ⟨z, rfl⟩
    · rename_i hne
      rcases List.mem_cons.1 h with e | h
      · cases e; exact absurd rfl hne
      · exact ih y h

theorem mem_composeBreak (r1 r2 : List (α × α)) (a y : α) :
    (a, y) ∈ composeBreak r1 r2 ↔ ∃ b, (a, b) ∈ r1 ∧ firstMatch b r2 = some y := by
  simp only [composeBreak, List.mem_toFinset, List.mem_filterMap, Option.map_eq_some_iff, Prod.mk.injEq, Prod.exists]
  constructor
  · rintro ⟨x, b, h1, y', h2, rfl, rfl⟩; exact ⟨b, h1, h2⟩
  · rintro ⟨b, h1, h2⟩; exact ⟨a, b, h1, y, h2, rfl, rfl⟩

mutual
/-- Denotations of concepts are sets of objects of the universe. -/
theorem denC_sub (S : DState α) (h : S.Ok) : ∀ c, denC S c ⊆ S.univ
  | .top => by simp [denC]
  | .bot => by simp [denC]
  | .prim n => by simpa [denC] using h.concept n
  | .not c => by simp [denC]
  | .and c1 c2 => fun x hx => by
      simp only [denC, Finset.mem_inter] at hx; exact denC_sub S h c1 hx.1
  | .or c1 c2 => fun x hx => by
      simp only [denC, Finset.mem_union] at hx
      exact hx.elim (fun h' => denC_sub S h c1 h') (fun h' => denC_sub S h c2 h')
  | .exists r c => fun x hx => by
      simp only [denC, Finset.mem_image, Finset.mem_filter] at hx
      obtain ⟨p, ⟨hp, _⟩, rfl⟩ := hx
      exact (Finset.mem_product.1 (denR_sub S h r hp)).1
  | .forall r c => by simp only [denC]; exact Finset.filter_subset _ _
  | .equal r1 r2 => by simp only [denC]; exact Finset.filter_subset _ _
theorem denR_sub (S : DState α) (h : S.Ok) : ∀ r, denR S r ⊆ S.univ ×ˢ S.univ
  | .prim n => by simpa [denR] using h.role n
  | .inverse r => fun x hx => by
      simp only [denR, Finset.mem_image] at hx
      obtain ⟨p, hp, rfl⟩ := hx
      have := Finset.mem_product.1 (denR_sub S h r hp)
      exact Finset.mem_product.2 ⟨this.2, this.1⟩
  | .star r => fun x hx => by
      have ih := denR_sub S h r
      obtain ⟨a, b⟩ := x
      simp only [denR, C34_transitiveClosure] at hx
      have : a ∈ S.univ ∧ b ∈ S.univ := by
        induction hx with
        | single h1 => exact Finset.mem_product.1 (ih h1)
        | tail _ h1 ih' => exact ⟨ih'.1, (Finset.mem_product.1 (ih h1)).2⟩
      exact Finset.mem_product.2 this
  | .comp r1 r2 => fun x hx => by
      obtain ⟨a, y⟩ := x
      simp only [denR, mem_composeBreak] at hx
      obtain ⟨b, h1, h2⟩ := hx
      have h1 := Finset.mem_product.1 (denR_sub S h r1 ((h.enum _ _).1 h1))
      have h2 := Finset.mem_product.1 (denR_sub S h r2 ((h.enum _ _).1 (firstMatch_some _ _ _ h2)))
      exact Finset.mem_product.2 ⟨h1.1, h2.2⟩
  | .restrict r c => fun x hx => by
      simp only [denR, Finset.mem_filter] at hx
      exact denR_sub S h r hx.1
end

mutual
theorem denC_spec (S : DState α) (h : S.Ok) : ∀ c, funCompC S c → ∀ x, x ∈ denC S c ↔ CSem S c x
  | .top, _, x => by simp only [denC, CSem]
  | .bot, _, x => by simp [denC, CSem]
  | .prim n, _, x => by simp only [denC, CSem]
  | .not c, hf, x => by simp only [denC, CSem, Finset.mem_sdiff, denC_spec S h c hf x]
  | .and c1 c2, hf, x => by
      simp only [denC, CSem, Finset.mem_inter, denC_spec S h c1 hf.1 x, denC_spec S h c2 hf.2 x]
  | .or c1 c2, hf, x => by
      simp only [denC, CSem, Finset.mem_union, denC_spec S h c1 hf.1 x, denC_spec S h c2 hf.2 x]
  | .exists r c, hf, x => by
      simp only [denC, CSem, Finset.mem_image, Finset.mem_filter, Prod.exists]
      constructor
      · rintro ⟨a, b, ⟨h1, h2⟩, rfl⟩
        exact ⟨b, (denR_spec S h r hf.1 a b).1 h1, (denC_spec S h c hf.2 b).1 h2⟩
      · rintro ⟨y, h1, h2⟩
        exact ⟨x, y, ⟨(denR_spec S h r hf.1 x y).2 h1, (denC_spec S h c hf.2 y).2 h2⟩, rfl⟩
  | .forall r c, hf, x => by
      simp only [denC, CSem, Finset.mem_filter]
      refine and_congr_right fun hx => ?_
      have hsub : denC S c ∪ S.univ.filter (fun y => (x, y) ∉ denR S r) ⊆ S.univ :=
        Finset.union_subset (denC_sub S h c) (Finset.filter_subset _ _)
      constructor
      · intro hc y hy
        have heq := Finset.eq_of_subset_of_card_le hsub (le_of_eq hc)
        have hyr := (denR_spec S h r hf.1 x y).2 hy
        have hyU := (Finset.mem_product.1 (denR_sub S h r hyr)).2
        rw [← heq] at hyU
        rcases Finset.mem_union.1 hyU with h' | h'
        · exact (denC_spec S h c hf.2 y).1 h'
        · exact absurd hyr (Finset.mem_filter.1 h').2
      · intro hall
        congr 1
        refine (Finset.Subset.antisymm hsub fun y hy => ?_).symm
        by_cases hr : (x, y) ∈ denR S r
        · exact Finset.mem_union_left _
            ((denC_spec S h c hf.2 y).2 (hall y ((denR_spec S h r hf.1 x y).1 hr)))
        · exact Finset.mem_union_right _ (Finset.mem_filter.2 ⟨hy, hr⟩)
  | .equal r1 r2, hf, x => by
      simp only [denC, CSem, Finset.mem_filter]
      refine and_congr_right fun _ => ?_
      rw [Finset.ext_iff]
      refine forall_congr' fun y => ?_
      have aux : ∀ R : Finset (α × α), y ∈ (R.filter fun p => p.1 = x).image Prod.snd ↔ (x, y) ∈ R := by
        intro R
        simp only [Finset.mem_image, Finset.mem_filter, Prod.exists]
        constructor
        · rintro ⟨a, b, ⟨h1, rfl⟩, rfl⟩; exact h1
        · intro h1; exact ⟨x, y, ⟨h1, rfl⟩, rfl⟩
      rw [aux, aux, denR_spec S h r1 hf.1 x y, denR_spec S h r2 hf.2 x y]
theorem denR_spec (S : DState α) (h : S.Ok) : ∀ r, funCompR S r → ∀ x y, (x, y) ∈ denR S r ↔ RSem S r x y
  | .prim n, _, x, y => by simp only [denR, RSem]
  | .inverse r, hf, x, y => by
      simp only [denR, RSem, Finset.mem_image, Prod.exists, Prod.mk.injEq]
      rw [← denR_spec S h r hf y x]
      constructor
      · rintro ⟨a, b, h1, rfl, rfl⟩; exact h1
      · intro h1; exact ⟨y, x, h1, rfl, rfl⟩
  | .star r, hf, x, y => by
      have ih := denR_spec S h r hf
      simp only [denR, RSem, C34_transitiveClosure]
      have : (fun a b => (a, b) ∈ denR S r) = RSem S r := by
        funext a b; exact propext (ih a b)
      rw [this]
  | .comp r1 r2, hf, x, y => by
      simp only [denR, RSem, mem_composeBreak]
      have ih1 := denR_spec S h r1 hf.1
      have ih2 := denR_spec S h r2 hf.2.1
      constructor
      · rintro ⟨b, h1, h2⟩
        exact ⟨b, (ih1 x b).1 ((h.enum _ _).1 h1), (ih2 b y).1 ((h.enum _ _).1 (firstMatch_some _ _ _ h2))⟩
      · rintro ⟨b, h1, h2⟩
        obtain ⟨z, hz⟩ := firstMatch_isSome b _ y ((h.enum _ _).2 ((ih2 b y).2 h2))
        have h3 := (ih2 b z).1 ((h.enum _ _).1 (firstMatch_some _ _ _ hz))
        have := hf.2.2 b z y h3 h2
        subst this
        exact ⟨b, (h.enum _ _).2 ((ih1 x b).2 h1), hz⟩
  | .restrict r c, hf, x, y => by
      simp only [denR, RSem, Finset.mem_filter, denR_spec S h r hf.1 x y, denC_spec S h c hf.2 y]
end

/-- C36 in full. -/
def C36_full : Prop :=
  ∀ (S : DState Nat), S.Ok → (∀ c x, x ∈ denC S c ↔ CSem S c x) ∧ ∀ r x y, (x, y) ∈ denR S r ↔ RSem S r x y

/-- A state where 1 is related to 2 by `r` and 2 to 3 and 4 by `s`. -/
noncomputable def exDL : DState Nat where
  univ := {1, 2, 3, 4}
  concept := fun n => if n = "a" then {3, 4} else ∅
  role := fun n => if n = "r" then {(1, 2)} else if n = "s" then {(2, 3), (2, 4)} else ∅
  enum := Finset.toList

/-- C36 is false of compositions: the inner loop stops at the first matching pair, so that whatever the order of
iteration only one of the two pairs of the composition is found. -/
theorem C36_composition_refuted (S : DState Nat) (h : S.Ok) (hr : S.role "r" = {(1, 2)})
    (hs : S.role "s" = {(2, 3), (2, 4)}) :
    RSem S (.comp (.prim "r") (.prim "s")) 1 3 ∧ RSem S (.comp (.prim "r") (.prim "s")) 1 4 ∧
    ¬ ((1, 3) ∈ denR S (.comp (.prim "r") (.prim "s")) ∧ (1, 4) ∈ denR S (.comp (.prim "r") (.prim "s"))) := by
  refine ⟨⟨2, by simp [RSem, hr], by simp [RSem, hs]⟩, ⟨2, by simp [RSem, hr], by simp [RSem, hs]⟩, ?_⟩
  simp only [denR, mem_composeBreak, hr, h.enum, Finset.mem_singleton, Prod.mk.injEq, true_and]
  rintro ⟨⟨b, rfl, h1⟩, b', rfl, h2⟩
  rw [h1] at h2; cases h2

/-- C36: the part that holds of every composition: the pairs found are right, and no object loses all its images. -/
theorem C36_composition_partial (S : DState α) (h : S.Ok) (r1 r2 : DRole) :
    (∀ a y, (a, y) ∈ denR S (.comp r1 r2) → ∃ b, (a, b) ∈ denR S r1 ∧ (b, y) ∈ denR S r2) ∧
    ∀ a b y, (a, b) ∈ denR S r1 → (b, y) ∈ denR S r2 → ∃ y', (a, y') ∈ denR S (.comp r1 r2) := by
  simp only [denR, mem_composeBreak]
  constructor
  · rintro a y ⟨b, h1, h2⟩
    exact ⟨b, (h.enum _ _).1 h1, (h.enum _ _).1 (firstMatch_some _ _ _ h2)⟩
  · intro a b y h1 h2
    obtain ⟨z, hz⟩ := firstMatch_isSome b _ y ((h.enum _ _).2 h2)
    exact ⟨z, b, (h.enum _ _).2 h1, hz⟩

/-- C36: denotations follow the standard semantics for all expressions in which the second role of every composition
is functional in the state; in particular for all expressions without compositions. Missing for the full property:
other compositions. -/
theorem C36_denotation_partial (S : DState α) (h : S.Ok) :
    (∀ c, funCompC S c → ∀ x, x ∈ denC S c ↔ CSem S c x) ∧
    (∀ r, funCompR S r → ∀ x y, (x, y) ∈ denR S r ↔ RSem S r x y) :=
  ⟨denC_spec S h, denR_spec S h⟩

mutual
theorem noCompC_fun (S : DState α) : ∀ c, noCompC c → funCompC S c
  | .top, _ => trivial
  | .bot, _ => trivial
  | .prim _, _ => trivial
  | .not c, h => noCompC_fun S c h
  | .and c1 c2, h => ⟨noCompC_fun S c1 h.1, noCompC_fun S c2 h.2⟩
  | .or c1 c2, h => ⟨noCompC_fun S c1 h.1, noCompC_fun S c2 h.2⟩
  | .exists r c, h => ⟨noCompR_fun S r h.1, noCompC_fun S c h.2⟩
  | .forall r c, h => ⟨noCompR_fun S r h.1, noCompC_fun S c h.2⟩
  | .equal r1 r2, h => ⟨noCompR_fun S r1 h.1, noCompR_fun S r2 h.2⟩
theorem noCompR_fun (S : DState α) : ∀ r, noCompR r → funCompR S r
  | .prim _, _ => trivial
  | .inverse r, h => noCompR_fun S r h
  | .star r, h => noCompR_fun S r h
  | .comp _ _, h => h.elim
  | .restrict r c, h => ⟨noCompR_fun S r h.1, noCompC_fun S c h.2⟩
end

/-- C36 for all expressions without compositions. -/
theorem C36_noComposition (S : DState α) (h : S.Ok) :
    (∀ c, noCompC c → ∀ x, x ∈ denC S c ↔ CSem S c x) ∧
    (∀ r, noCompR r → ∀ x y, (x, y) ∈ denR S r ↔ RSem S r x y) :=
  ⟨fun c hc => denC_spec S h c (noCompC_fun S c hc), fun r hr => denR_spec S h r (noCompR_fun S r hr)⟩

/-- C36: denotations never leave the universe, whatever the expression. -/
theorem C36_closed (S : DState α) (h : S.Ok) :
    (∀ c, denC S c ⊆ S.univ) ∧ ∀ r, denR S r ⊆ S.univ ×ˢ S.univ := ⟨denC_sub S h, denR_sub S h⟩

/-- `StarRole` is the transitive, not the reflexive-transitive, closure: an object is related to itself only if it is
on a cycle. -/
theorem C36_star (S : DState α) (h : S.Ok) (r : DRole) (hf : funCompR S r) (x : α) :
    (x, x) ∈ denR S (.star r) ↔ Relation.TransGen (RSem S r) x x := denR_spec S h (.star r) hf x x

theorem exDL_ok : exDL.Ok where
  concept := by intro n; simp only [exDL]; split <;> decide
  role := by intro n; simp only [exDL]; split; · decide
             · split <;> decide
  enum := fun _ _ => Finset.mem_toList

theorem C36_refuted : ¬ C36_full := by
  intro h
  have h1 := C36_composition_refuted exDL exDL_ok rfl rfl
  have h2 := (h exDL exDL_ok).2
  exact h1.2.2 ⟨(h2 _ _ _).2 h1.1, (h2 _ _ _).2 h1.2.1⟩

/-- In the example state: everything that is related by `s` is in `a`; 2 is the only object with an `s`-successor. -/
example : funCompC exDL (.and (.forall (.prim "s") (.prim "a")) (.exists (.prim "s") .top)) ∧
    CSem exDL (.and (.forall (.prim "s") (.prim "a")) (.exists (.prim "s") .top)) 2 ∧
    ¬ CSem exDL (.and (.forall (.prim "s") (.prim "a")) (.exists (.prim "s") .top)) 1 := by
  refine ⟨⟨⟨trivial, trivial⟩, trivial, trivial⟩, ⟨⟨by decide, ?_⟩, 3, by simp [RSem, exDL], by simp [CSem, exDL]⟩, ?_⟩
  · intro y hy
    simp only [RSem, exDL, CSem] at hy ⊢
    simp at hy ⊢
    exact hy
  · rintro ⟨_, y, hy, _⟩
    simp [RSem, exDL] at hy

/-! ### C37 -/

/-- The change seen in the opposite direction. -/
def FChange.swap : FChange → FChange
  | .add => .del
  | .del => .add
  | .inc => .dec
  | .dec => .inc
  | .nil => .nil

/-- C37: integer differences: nothing changed iff the values are equal, an increase iff the second is larger, a
decrease iff it is smaller; swapping the values swaps the change. -/
theorem C37_int (x y : Nat) :
    (intDiff x y = .nil ↔ x = y) ∧ (intDiff x y = .inc ↔ x < y) ∧ (intDiff x y = .dec ↔ y < x) ∧
    intDiff y x = (intDiff x y).swap := by
  unfold intDiff
  rcases Nat.lt_trichotomy x y with h | h | h
  · have h1 : x ≠ y := by omega
    have h2 : ¬ x > y := by omega
    have h3 : y ≠ x := by omega
    have h4 : y > x := h
    simp [h1, h2, h3, h4, FChange.swap]
  · subst h; simp [FChange.swap]
  · have h1 : x ≠ y := by omega
    have h2 : ¬ y > x := by omega
    have h3 : y ≠ x := by omega
    simp [h1, h2, h3, h, FChange.swap]

/-- C37: Boolean differences. -/
theorem C37_bool (x y : Bool) :
    (boolDiff x y = .nil ↔ x = y) ∧ (boolDiff x y = .add ↔ x = false ∧ y = true) ∧
    (boolDiff x y = .del ↔ x = true ∧ y = false) ∧ boolDiff y x = (boolDiff x y).swap := by
  cases x <;> cases y <;> simp [boolDiff, FChange.swap]

/-- C37: the difference of the values of a feature in two states is always defined, is "nil" exactly if the values
are equal, and swaps when the states are swapped. -/
theorem C37_diff (f : DFeature) (S S' : DState α) (e e' : Finset α → List α) (at1 at2 : String → Bool) (v v' : FValue)
    (hv : f.value S e at1 = some v) (hv' : f.value S' e' at2 = some v') :
    ∃ c, f.diff v v' = some c ∧ (c = .nil ↔ v = v') ∧ f.diff v' v = some c.swap := by
  have hint : ∀ x y : Nat, (intDiff x y = .nil ↔ FValue.int x = FValue.int y) := by
    intro x y; rw [(C37_int x y).1]; simp
  have hbool : ∀ x y : Bool, (boolDiff x y = .nil ↔ FValue.bool x = FValue.bool y) := by
    intro x y; rw [(C37_bool x y).1]; simp
  cases f with
  | card c =>
    simp only [DFeature.value, Option.some.injEq] at hv hv'; subst hv; subst hv'
    exact ⟨_, rfl, hint _ _, congrArg some (C37_int _ _).2.2.2⟩
  | minDist c1 r c2 =>
    simp only [DFeature.value, Option.some.injEq] at hv hv'; subst hv; subst hv'
    exact ⟨_, rfl, hint _ _, congrArg some (C37_int _ _).2.2.2⟩
  | empirical c =>
    simp only [DFeature.value] at hv hv'
    split at hv
    · split at hv'
      · simp only [Option.some.injEq] at hv hv'; subst hv; subst hv'
        exact ⟨_, rfl, hbool _ _, congrArg some (C37_bool _ _).2.2.2⟩
      · cases hv'
    · cases hv
  | less c1 c2 =>
    simp only [DFeature.value, Option.some.injEq] at hv hv'; subst hv; subst hv'
    exact ⟨_, rfl, hbool _ _, congrArg some (C37_bool _ _).2.2.2⟩
  | nullary n =>
    simp only [DFeature.value, Option.some.injEq] at hv hv'; subst hv; subst hv'
    exact ⟨_, rfl, hbool _ _, congrArg some (C37_bool _ _).2.2.2⟩

/-- C37: "analogous" is an equivalence relation on changes, identifying exactly add with increase and delete with
decrease. -/
theorem C37_analogous (x y z : FChange) :
    analogous x x = true ∧ (analogous x y = analogous y x) ∧
    (analogous x y = true → analogous y z = true → analogous x z = true) ∧
    (analogous x y = true → analogous x.swap y.swap = true) := by
  cases x <;> cases y <;> cases z <;> decide

/-- C37 with C35 and C36: the value of a distance feature is the length of a shortest path in the standard semantics
of its concepts and role. -/
theorem C37_minDistance (S : DState α) (h : S.Ok) (e : Finset α → List α) (he : ∀ s x, x ∈ e s ↔ x ∈ s)
    (at1 : String → Bool) (c1 c2 : DConcept) (r : DRole) (h1 : funCompC S c1) (h2 : funCompC S c2) (hr : funCompR S r)
    (hlen : (S.enum (denR S r)).length < sysMaxsize) (n : Nat) (hn : n ≠ sysMaxsize) :
    (DFeature.minDist c1 r c2).value S e at1 = some (.int n) ↔
      ∃ as R bs, (∀ x, x ∈ as ↔ CSem S c1 x) ∧ (∀ x y, (x, y) ∈ R ↔ RSem S r x y) ∧ (∀ x, x ∈ bs ↔ CSem S c2 x) ∧
        IsMinDistance as R bs n := by
  have key := (C35_minDistance (e (denC S c1)) (S.enum (denR S r)) (e (denC S c2)) hlen).1 n hn
  have m1 : ∀ x, x ∈ e (denC S c1) ↔ CSem S c1 x := fun x => (he _ x).trans (denC_spec S h c1 h1 x)
  have m2 : ∀ x, x ∈ e (denC S c2) ↔ CSem S c2 x := fun x => (he _ x).trans (denC_spec S h c2 h2 x)
  have mr : ∀ x y, (x, y) ∈ S.enum (denR S r) ↔ RSem S r x y :=
    fun x y => (h.enum _ _).trans (denR_spec S h r hr x y)
  simp only [DFeature.value, Option.some.injEq, FValue.int.injEq]
  rw [key]
  constructor
  · intro hd; exact ⟨_, _, _, m1, mr, m2, hd⟩
  · rintro ⟨as, R, bs, a1, a2, a3, ⟨a, ha, b, hb, hp⟩, hm⟩
    have tr : ∀ R R' : List (α × α), (∀ x y, (x, y) ∈ R → (x, y) ∈ R') → ∀ {k a b}, Path R k a b → Path R' k a b := by
      intro R R' hs k a b hp
      induction hp with
      | nil => exact Path.nil _
      | snoc _ he ih => exact Path.snoc ih (hs _ _ he)
    refine ⟨⟨a, (m1 a).2 ((a1 a).1 ha), b, (m2 b).2 ((a3 b).1 hb),
      tr _ _ (fun x y h => (mr x y).2 ((a2 x y).1 h)) hp⟩, ?_⟩
    intro m a' ha' b' hb' hp'
    exact hm m a' ((a1 a').2 ((m1 a').1 ha')) b' ((a3 b').2 ((m2 b').1 hb'))
      (tr _ _ (fun x y h => (a2 x y).2 ((mr x y).1 h)) hp')

/-- C37: the values of the other features. -/
theorem C37_values (S : DState α) (e : Finset α → List α) (at1 : String → Bool) (c c' : DConcept) :
    (DFeature.card c).value S e at1 = some (.int (denC S c).card) ∧
    ((DFeature.less c c').value S e at1 = some (.bool true) ↔ (denC S c).card < (denC S c').card) ∧
    (∀ b, (DFeature.empirical c).value S e at1 = some (.bool b) ↔ (denC S c).card = if b then 1 else 0) := by
  refine ⟨rfl, by simp [DFeature.value], fun b => ?_⟩
  simp only [DFeature.value]
  by_cases h0 : (denC S c).card = 0
  · cases b <;> simp [h0]
  · by_cases h1 : (denC S c).card = 1
    · cases b <;> simp [h1]
    · cases b <;> simp [h0, h1]

end Tarski

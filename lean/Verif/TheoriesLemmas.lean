import Verif.Theories
import Verif.Props.Language
import Mathlib.Tactic.Common
/-! Helper lemmas for Props/Theories.lean. -/
namespace Tarski

/-! ### More steps do not change the result of a call that has returned -/

theorem inclusionClosure_mono (par : String → Option (Option String)) : ∀ (n : Nat) (s r),
    inclusionClosure par n s = some r → inclusionClosure par (n + 1) s = some r := by
  intro n
  induction n with
  | zero => intro s r h; simp [inclusionClosure] at h
  | succ n ih =>
    intro s r h
    rw [inclusionClosure] at h ⊢
    cases hp : par s with
    | none => simpa [hp] using h
    | some o =>
      cases o with
      | none => simpa [hp] using h
      | some p =>
        simp only [hp] at h ⊢
        cases hc : inclusionClosure par n p with
        | none => simp [hc] at h
        | some q => rw [ih p q hc]; simpa [hc] using h

theorem setParent_mono {n L s p ow r} (h : setParent n L s p ow = some r) : setParent (n + 1) L s p ow = some r := by
  unfold setParent at h ⊢
  split
  · rename_i hc; simpa [hc] using h
  · rename_i hc
    simp only [hc, if_false] at h
    dsimp only at h ⊢
    cases hi : inclusionClosure (upd L.parent s (some (some p))) n p with
    | none => simp [hi] at h
    | some q => rw [inclusionClosure_mono _ n p q hi]; simpa [hi] using h

theorem attachSort_mono {n L name i p r} (h : attachSort n L name i p = some r) : attachSort (n + 1) L name i p = some r := by
  unfold attachSort at h ⊢
  cases hc : checkName L (L.sorts name).isSome name with
  | some e => simpa [hc] using h
  | none =>
    simp only [hc] at h ⊢
    cases p with
    | none => simpa using h
    | some p => exact setParent_mono h

theorem extendList_mono {f g : (String → List String) → String → Option (String → List String)}
    (hfg : ∀ d p r, f d p = some r → g d p = some r) : ∀ (l d r), extendList f d l = some r → extendList g d l = some r := by
  intro l
  induction l with
  | nil => intro d r h; simpa [extendList] using h
  | cons p ps ih =>
    intro d r h
    simp only [extendList] at h ⊢
    cases hf : f d p with
    | none => simp [hf] at h
    | some d' => rw [hfg _ _ _ hf]; exact ih _ _ (by simpa [hf] using h)

theorem extend_mono (L : Lang) : ∀ (n : Nat) (dom s c r), extend L n dom s c = some r → extend L (n + 1) dom s c = some r := by
  intro n
  induction n with
  | zero => intro dom s c r h; simp [extend] at h
  | succ n ih =>
    intro dom s c r h
    rw [extend] at h ⊢
    split
    · rename_i hc; simpa [hc] using h
    · rename_i hc
      simp only [hc] at h
      exact extendList_mono (fun d p r h => ih d p c r h) _ _ _ h

theorem connLoop_mono (L : Lang) (goal : String) : ∀ (n : Nat) (l r), connLoop L goal n l = some r → connLoop L goal (n + 1) l = some r := by
  intro n
  induction n with
  | zero => intro l r h; cases l with
    | nil => simpa [connLoop] using h
    | cons t l => simp [connLoop] at h
  | succ n ih =>
    intro l r h
    cases l with
    | nil => simpa [connLoop] using h
    | cons t l =>
      rw [connLoop] at h ⊢
      split
      · rename_i hc; simpa [hc] using h
      · rename_i hc; simp only [hc, if_false] at h; exact ih _ _ h

theorem isSubtype_mono {n L t s r} (h : isSubtype n L t s = some r) : isSubtype (n + 1) L t s = some r := by
  unfold isSubtype at h ⊢
  split
  · rename_i hc; simpa [hc] using h
  · rename_i h1; simp only [h1, if_false] at h
    split
    · rename_i hc; simpa [hc] using h
    · rename_i h2; simp only [h2, if_false] at h
      split
      · rename_i hc; simpa [hc] using h
      · rename_i h3; simp only [h3, if_false] at h
        cases hc : connLoop L s n (L.anc t) with
        | none => simp [hc] at h
        | some b => rw [connLoop_mono L s n _ b hc]; simpa [hc] using h

theorem lstep_mono {n L op r} (h : lstep n L op = some r) : lstep (n + 1) L op = some r := by
  cases op with
  | sort name parent =>
    simp only [lstep, declSort] at h ⊢
    cases hp : L.sorts parent with
    | none => simpa [hp] using h
    | some _ => simp only [hp] at h ⊢; exact attachSort_mono h
  | attachBuiltin name parent => simp only [lstep] at h ⊢; exact attachSort_mono h
  | attachForeign name => simp only [lstep] at h ⊢; exact attachSort_mono h
  | interval name parent lb ub =>
    simp only [lstep, declInterval] at h ⊢
    cases hc : checkName L (L.sorts name).isSome name with
    | some e => simpa [hc] using h
    | none =>
      simp only [hc] at h ⊢
      repeat' split
      all_goals first
        | (simp_all; done)
        | skip
      rename_i h1 h2 h3 h4
      simp only [h1, h2, h3, h4, if_false] at h
      exact setParent_mono h
  | predicate name args => exact h
  | function name args => exact h
  | constant name sort ok =>
    simp only [lstep, declConstant] at h ⊢
    cases hs : L.sorts sort with
    | none => simpa [hs] using h
    | some i =>
      simp only [hs] at h ⊢
      split
      · rename_i hc; simpa [hc] using h
      · rename_i h1
        simp only [h1] at h
        cases hc : checkName L (L.consts name).isSome name with
        | some e => simpa [hc] using h
        | none =>
          simp only [hc] at h ⊢
          split
          · rename_i h2; simpa [h2] using h
          · rename_i h2
            simp only [h2] at h
            cases he : extend L n L.dom sort name with
            | none => simp [he] at h
            | some d => rw [extend_mono L n _ _ _ d he]; simpa [he] using h
  | removeSymbol name => exact h
  | setParent s p => exact setParent_mono h
  | isSubtype t s =>
    simp only [lstep] at h ⊢
    cases hi : isSubtype n L t s with
    | none => simp [hi] at h
    | some q => rw [isSubtype_mono hi]; simpa [hi] using h

theorem lstep_le {n m L op r} (h : lstep n L op = some r) (hm : n ≤ m) : lstep m L op = some r := by
  induction hm with
  | refl => exact h
  | step _ ih => exact lstep_mono ih

theorem isSubtype_le {n m L t s r} (h : isSubtype n L t s = some r) (hm : n ≤ m) : isSubtype m L t s = some r := by
  induction hm with
  | refl => exact h
  | step _ ih => exact isSubtype_mono ih

theorem loadStep_le {n m L st r} (h : loadStep n L st = some r) (hm : n ≤ m) : loadStep m L st = some r := by
  cases st with
  | decl op =>
    simp only [loadStep] at h ⊢
    cases hs : lstep n L.base op with
    | none => simp [hs] at h
    | some q => rw [lstep_le hs hm]; simpa [hs] using h
  | handler k x => exact h
  | symbol s sorts => exact h

theorem runSteps_le {n m sts} (hm : n ≤ m) : ∀ {L r}, runSteps n L sts = some r → runSteps m L sts = some r := by
  induction sts with
  | nil => intro L r h; exact h
  | cons st sts ih =>
    intro L r h
    simp only [runSteps] at h ⊢
    cases hs : loadStep n L st with
    | none => simp [hs] at h
    | some q =>
      rw [loadStep_le hs hm]
      simp only [hs] at h ⊢
      obtain ⟨L', e⟩ := q
      cases e with
      | some e => exact h
      | none => exact ih h

/-! ### Which declarations the loaders make -/

/-- Statements that may run when the sorts in `known` exist: no removal, no query, no re-parenting, parents
known. -/
def SafeSteps : List String → List LoadStep → Prop
  | _, [] => True
  | known, .decl (.attachBuiltin s p) :: sts => p ∈ known ∧ SafeSteps (s :: known) sts
  | known, .decl (.sort s p) :: sts => p ∈ known ∧ SafeSteps (s :: known) sts
  | known, .decl (.constant _ s _) :: sts => s ∈ known ∧ SafeSteps known sts
  | known, .decl (.function _ ss) :: sts => (∀ s ∈ ss, s ∈ known) ∧ ss ≠ [] ∧ SafeSteps known sts
  | _, .decl _ :: _ => False
  | known, .handler _ _ :: sts => SafeSteps known sts
  | known, .symbol _ _ :: sts => SafeSteps known sts

/-- What a language keeps when declarations are added. -/
structure Keeps (L L' : Lang) : Prop where
  index : ∀ n o, L.index n = some o → L'.index n = some o
  sorts : ∀ s i, L.sorts s = some i → L'.sorts s = some i
  preds : L'.preds = L.preds
  funs : ∀ f a, L.funs f = some a → L'.funs f = some a
  consts : ∀ c s, L.consts c = some s → L'.consts c = some s
  parent : ∀ s, (L.sorts s).isSome → L'.parent s = L.parent s
  anc : ∀ s, (L.sorts s).isSome → L'.anc s = L.anc s
  dom : ∀ s c, c ∈ L.dom s → c ∈ L'.dom s

theorem Keeps.refl (L : Lang) : Keeps L L := ⟨fun _ _ h => h, fun _ _ h => h, rfl, fun _ _ h => h, fun _ _ h => h,
  fun _ _ => rfl, fun _ _ => rfl, fun _ _ h => h⟩

theorem Keeps.some_sorts {L L' : Lang} (h : Keeps L L') {s} (hs : (L.sorts s).isSome) : (L'.sorts s).isSome := by
  obtain ⟨i, hi⟩ := Option.isSome_iff_exists.mp hs
  rw [h.sorts s i hi]; rfl

theorem Keeps.trans {L L' L'' : Lang} (h : Keeps L L') (h' : Keeps L' L'') : Keeps L L'' where
  index n o hn := h'.index n o (h.index n o hn)
  sorts n o hn := h'.sorts n o (h.sorts n o hn)
  preds := h'.preds.trans h.preds
  funs n o hn := h'.funs n o (h.funs n o hn)
  consts n o hn := h'.consts n o (h.consts n o hn)
  parent s hs := (h'.parent s (h.some_sorts hs)).trans (h.parent s hs)
  anc s hs := (h'.anc s (h.some_sorts hs)).trans (h.anc s hs)
  dom s c hc := h'.dom s c (h.dom s c hc)

theorem keeps_attach {n L name i p L' e} (hr : LReach LOp.plain L) (hp : (L.sorts p).isSome)
    (h : attachSort n L name i (some p) = some (L', e)) :
    (e = none ∧ L.index name = none ∧ Keeps L L' ∧ L'.sorts = upd L.sorts name (some i) ∧
      L'.index = upd L.index name (some (.sort name)) ∧ L'.dom = L.dom ∧ L'.ParentOf name p ∧
      (∀ x, x ≠ name → L'.parent x = L.parent x) ∧ L'.consts = L.consts ∧ L'.funs = L.funs) ∨
    (L' = L ∧ e = some .duplicateVariable ∧ L.index name ≠ none) := by
  have hn := nameInv_reach hr
  have ht := (domInv_reach hr).tree
  unfold attachSort at h
  cases hc : checkName L (L.sorts name).isSome name with
  | some e' =>
    simp only [hc] at h
    cases h
    right
    unfold checkName at hc
    split at hc
    · rename_i hs
      refine ⟨rfl, by cases hc; rfl, ?_⟩
      rw [(hn.sort name).mp hs]; simp
    · split at hc
      · rename_i hs; refine ⟨rfl, by cases hc; rfl, ?_⟩; intro h0; rw [h0] at hs; simp at hs
      · cases hc
  | none =>
    simp only [hc] at h
    left
    have hi : L.index name = none := (checkName_none hc).2
    have hsn : L.sorts name = none := by
      have := (checkName_none hc).1
      cases hs : L.sorts name with
      | none => rfl
      | some _ => rw [hs] at this; simp at this
    obtain ⟨h1, h2, h3, h4, h5, h6, h7, h8, h9, h10, h11, h12, h13⟩ := attach_ok ht.hier hp hsn h
    refine ⟨h1, hi, ?_, h8, h9, h10, h4, h5, h11, h13⟩
    have hne : ∀ s, (L.sorts s).isSome → s ≠ name := by rintro s hs rfl; rw [hsn] at hs; simp at hs
    refine ⟨?_, ?_, h12, ?_, ?_, ?_, ?_, ?_⟩
    · intro m o hm
      rw [h9, upd_ne]; exact hm
      rintro rfl; rw [hi] at hm; cases hm
    · intro m o hm
      rw [h8, upd_ne]; exact hm
      rintro rfl; rw [hsn] at hm; cases hm
    · rw [h13]; exact fun _ _ h => h
    · rw [h11]; exact fun _ _ h => h
    · intro s hs; exact h5 s (hne s hs)
    · intro s hs; exact h6 s (hne s hs)
    · rw [h10]; exact fun _ _ h => h

theorem checkName_error {L : Lang} (hn : NameInv L) {b name e} (hb : b = true → L.index name ≠ none)
    (h : checkName L b name = some e) : e = .duplicateVariable ∧ L.index name ≠ none := by
  unfold checkName at h
  split at h
  · rename_i hs; exact ⟨by cases h; rfl, hb hs⟩
  · split at h
    · rename_i hs; refine ⟨by cases h; rfl, ?_⟩; intro h0; rw [h0] at hs; simp at hs
    · cases h

theorem checkName_free {L : Lang} (b : Bool) {name} (hb : b = true → L.index name ≠ none) (h : L.index name = none) :
    checkName L b name = none := by
  unfold checkName
  cases b with
  | true => exact absurd h (hb rfl)
  | false => simp [h]

theorem keeps_constant {n L name sort L' e} (hr : LReach LOp.plain L) (hs : ∃ i, L.sorts sort = some i ∧ i.interval = false ∧ i.builtin = false)
    (h : declConstant n L name sort true = some (L', e)) :
    (e = none ∧ L.index name = none ∧ Keeps L L' ∧ L'.sorts = L.sorts ∧
      L'.index = upd L.index name (some (.const name sort)) ∧ L'.parent = L.parent ∧ L'.anc = L.anc ∧
      (∀ s c, c ∈ L'.dom s ↔ c ∈ L.dom s ∨ c = name ∧ ¬ L.isInterval s ∧ NIReach L sort s) ∧
      L'.consts = upd L.consts name (some sort) ∧ L'.funs = L.funs) ∨
    (L' = L ∧ e = some .duplicateVariable ∧ L.index name ≠ none) := by
  have hn := nameInv_reach hr
  obtain ⟨i, hi, hiv, hb⟩ := hs
  unfold declConstant at h
  simp only [hi, hb, Bool.false_eq_true, if_false] at h
  have hcon : (L.consts name).isSome = true → L.index name ≠ none := by
    intro hc
    obtain ⟨s, hs⟩ := Option.isSome_iff_exists.mp hc
    rw [(hn.const name s).mp hs]; simp
  cases hc : checkName L (L.consts name).isSome name with
  | some e' =>
    simp only [hc] at h
    cases h
    right
    obtain ⟨h1, h2⟩ := checkName_error hn hcon hc
    exact ⟨rfl, by rw [h1], h2⟩
  | none =>
    simp only [hc, hiv, Bool.false_eq_true, if_false] at h
    have hidx := (checkName_none hc).2
    have hcn : L.consts name = none := by
      cases hs : L.consts name with
      | none => rfl
      | some s => rw [(hn.const name s).mp hs] at hidx; cases hidx
    cases he : extend L n L.dom sort name with
    | none => simp [he] at h
    | some d =>
      simp only [he] at h
      cases h
      left
      have hsp := extend_spec L n L.dom sort name d he
      refine ⟨rfl, hidx, ⟨?_, fun _ _ h => h, rfl, fun _ _ h => h, ?_, fun _ _ => rfl, fun _ _ => rfl, ?_⟩, rfl, rfl,
        rfl, rfl, ?_, rfl, rfl⟩
      · intro m o hm; simp only; rw [upd_ne]; exact hm
        rintro rfl; rw [hidx] at hm; cases hm
      · intro m o hm; simp only; rw [upd_ne]; exact hm
        rintro rfl; rw [hcn] at hm; cases hm
      · intro s c hc; exact (hsp s c).mpr (.inl hc)
      · intro s c; exact hsp s c

theorem keeps_function {L name ss L' e} (hr : LReach LOp.plain L) (hs : ∀ s ∈ ss, (L.sorts s).isSome) (hne : ss ≠ [])
    (h : declFunction L name ss = (L', e)) :
    (e = none ∧ L.index name = none ∧ Keeps L L' ∧ L'.sorts = L.sorts ∧
      L'.index = upd L.index name (some (.func name ss)) ∧ L'.parent = L.parent ∧ L'.anc = L.anc ∧
      L'.dom = L.dom ∧ L'.consts = L.consts ∧ L'.funs = upd L.funs name (some ss)) ∨
    (L' = L ∧ e = some .duplicateVariable ∧ L.index name ≠ none) := by
  have hn := nameInv_reach hr
  unfold declFunction at h
  have hcon : (L.funs name).isSome = true → L.index name ≠ none := by
    intro hc
    obtain ⟨s, hs⟩ := Option.isSome_iff_exists.mp hc
    rw [(hn.func name s).mp hs]; simp
  cases hc : checkName L (L.funs name).isSome name with
  | some e' =>
    simp only [hc] at h
    cases h
    right
    obtain ⟨h1, h2⟩ := checkName_error hn hcon hc
    exact ⟨rfl, by rw [h1], h2⟩
  | none =>
    have hany : ss.any (fun a => (L.sorts a).isNone) = false := by
      rw [List.any_eq_false]
      intro a ha
      have := hs a ha
      cases hx : L.sorts a with
      | none => rw [hx] at this; simp at this
      | some _ => simp
    have hemp : ss.isEmpty = false := by cases ss with
      | nil => exact absurd rfl hne
      | cons _ _ => rfl
    simp only [hc, hany, hemp, Bool.false_eq_true, if_false] at h
    have hidx := (checkName_none hc).2
    have hcn : L.funs name = none := by
      cases hs : L.funs name with
      | none => rfl
      | some s => rw [(hn.func name s).mp hs] at hidx; cases hidx
    cases h
    left
    refine ⟨rfl, hidx, ⟨?_, fun _ _ h => h, rfl, ?_, fun _ _ h => h, fun _ _ => rfl, fun _ _ => rfl, fun _ _ h => h⟩, rfl, rfl,
        rfl, rfl, rfl, rfl, rfl⟩
    · intro m o hm; simp only; rw [upd_ne]; exact hm
      rintro rfl; rw [hidx] at hm; cases hm
    · intro m o hm; simp only; rw [upd_ne]; exact hm
      rintro rfl; rw [hcn] at hm; cases hm

theorem keeps_constant' {n L name sort ok L' e} (hr : LReach LOp.plain L)
    (h : declConstant n L name sort ok = some (L', e)) : Keeps L L' := by
  have hn := nameInv_reach hr
  unfold declConstant at h
  cases hs : L.sorts sort with
  | none => simp only [hs] at h; cases h; exact .refl _
  | some i =>
    simp only [hs] at h
    split at h
    · cases h; exact .refl _
    · cases hc : checkName L (L.consts name).isSome name with
      | some e' => simp only [hc] at h; cases h; exact .refl _
      | none =>
        simp only [hc] at h
        have hidx := (checkName_none hc).2
        have hcn : L.consts name = none := by
          cases hs : L.consts name with
          | none => rfl
          | some s => rw [(hn.const name s).mp hs] at hidx; cases hidx
        have key : ∀ d : String → List String, (∀ s c, c ∈ L.dom s → c ∈ d s) →
            Keeps L { L with dom := d, consts := upd L.consts name (some sort), index := upd L.index name (some (.const name sort)) } := by
          intro d hd
          refine ⟨?_, fun _ _ h => h, rfl, fun _ _ h => h, ?_, fun _ _ => rfl, fun _ _ => rfl, hd⟩
          · intro m o hm; simp only; rw [upd_ne]; exact hm
            rintro rfl; rw [hidx] at hm; cases hm
          · intro m o hm; simp only; rw [upd_ne]; exact hm
            rintro rfl; rw [hcn] at hm; cases hm
        split at h
        · split at h
          · cases h; exact key L.dom (fun _ _ h => h)
          · cases h; exact .refl _
        · cases he : extend L n L.dom sort name with
          | none => simp [he] at h
          | some d =>
            simp only [he] at h
            cases h
            exact key d (fun s c hc => (extend_spec L n L.dom sort name d he s c).mpr (.inl hc))

/-- One statement of a loader, in general. -/
theorem keeps_loadStep {n L st sts L' e known} (hr : LReach LOp.plain L.base) (hk : ∀ s ∈ known, (L.base.sorts s).isSome)
    (hs : SafeSteps known (st :: sts)) (h : loadStep n L st = some (L', e)) :
    LReach LOp.plain L'.base ∧ Keeps L.base L'.base ∧ L'.theories = L.theories ∧
      (e = none → ∃ known', SafeSteps known' sts ∧ ∀ s ∈ known', (L'.base.sorts s).isSome) := by
  cases st with
  | handler k x => cases h; exact ⟨hr, .refl _, rfl, fun _ => ⟨known, hs, hk⟩⟩
  | symbol s ss =>
    simp only [loadStep] at h
    have fin : ∀ L'' : TLang, L''.base = L.base → L''.theories = L.theories → LReach LOp.plain L''.base ∧ Keeps L.base L''.base ∧ L''.theories = L.theories ∧
      (e = none → ∃ known', SafeSteps known' sts ∧ ∀ s ∈ known', (L''.base.sorts s).isSome) := by
      intro L'' h1 h2
      rw [h1]
      exact ⟨hr, .refl _, h2, fun _ => ⟨known, hs, hk⟩⟩
    split at h
    · cases h; exact fin _ rfl rfl
    · split at h
      · cases h; exact fin _ rfl rfl
      · cases h; exact fin _ rfl rfl
  | decl op =>
    simp only [loadStep] at h
    cases hl : lstep n L.base op with
    | none => simp [hl] at h
    | some q =>
      obtain ⟨b, e'⟩ := q
      simp only [hl] at h
      cases h
      show LReach LOp.plain b ∧ Keeps L.base b ∧ L.theories = L.theories ∧ (e = none → ∃ known', SafeSteps known' sts ∧ ∀ s ∈ known', (b.sorts s).isSome)
      cases op with
      | attachBuiltin s p =>
        simp only [SafeSteps] at hs
        have hp := hk p hs.1
        refine ⟨.step _ (.attachBuiltin s p) n _ _ hr trivial (by intro _ _ h; cases h) (by intro s' p' h; cases h; exact hp) hl, ?_⟩
        simp only [lstep] at hl
        rcases keeps_attach hr hp hl with ⟨h1, h2, h3, h4, h5, _⟩ | ⟨h1, h2, h3⟩
        · refine ⟨h3, rfl, fun _ => ⟨s :: known, hs.2, ?_⟩⟩
          intro x hx
          rcases List.mem_cons.mp hx with rfl | hx
          · rw [h4, upd_self]; rfl
          · exact h3.some_sorts (hk x hx)
        · subst h1; subst h2; exact ⟨.refl _, rfl, fun h => by cases h⟩
      | sort s p =>
        simp only [SafeSteps] at hs
        have hp := hk p hs.1
        refine ⟨.step _ (.sort s p) n _ _ hr trivial (by intro _ _ h; cases h) (by intro s' p' h; cases h) hl, ?_⟩
        simp only [lstep, declSort] at hl
        obtain ⟨i, hi⟩ := Option.isSome_iff_exists.mp hp
        simp only [hi] at hl
        rcases keeps_attach hr hp hl with ⟨h1, h2, h3, h4, h5, _⟩ | ⟨h1, h2, h3⟩
        · refine ⟨h3, rfl, fun _ => ⟨s :: known, hs.2, ?_⟩⟩
          intro x hx
          rcases List.mem_cons.mp hx with rfl | hx
          · rw [h4, upd_self]; rfl
          · exact h3.some_sorts (hk x hx)
        · subst h1; subst h2; exact ⟨.refl _, rfl, fun h => by cases h⟩
      | constant c s ok =>
        simp only [SafeSteps] at hs
        refine ⟨.step _ (.constant c s ok) n _ _ hr trivial (by intro _ _ h; cases h) (by intro s' p' h; cases h) hl, ?_⟩
        have h3 := keeps_constant' hr (by simpa [lstep] using hl)
        exact ⟨h3, rfl, fun _ => ⟨known, hs.2, fun x hx => h3.some_sorts (hk x hx)⟩⟩
      | function f ss =>
        simp only [SafeSteps] at hs
        refine ⟨.step _ (.function f ss) n _ _ hr trivial (by intro _ _ h; cases h) (by intro s' p' h; cases h) hl, ?_⟩
        simp only [lstep, Option.some.injEq] at hl
        rcases keeps_function hr (fun s h => hk s (hs.1 s h)) hs.2.1 hl with ⟨_, _, h3, _⟩ | ⟨h1, h2, _⟩
        · exact ⟨h3, rfl, fun _ => ⟨known, hs.2.2, fun x hx => h3.some_sorts (hk x hx)⟩⟩
        · subst h1; exact ⟨.refl _, rfl, fun _ => ⟨known, hs.2.2, hk⟩⟩
      | _ => simp [SafeSteps] at hs

theorem keeps_runSteps {n sts} : ∀ {L L' e known}, LReach LOp.plain L.base → (∀ s ∈ known, (L.base.sorts s).isSome) →
    SafeSteps known sts → runSteps n L sts = some (L', e) →
    LReach LOp.plain L'.base ∧ Keeps L.base L'.base ∧ L'.theories = L.theories := by
  induction sts with
  | nil => intro L L' e known hr _ _ h; cases h; exact ⟨hr, .refl _, rfl⟩
  | cons st sts ih =>
    intro L L' e known hr hk hs h
    simp only [runSteps] at h
    cases hl : loadStep n L st with
    | none => simp [hl] at h
    | some q =>
      obtain ⟨L1, e1⟩ := q
      obtain ⟨a1, a2, a3, a4⟩ := keeps_loadStep hr hk hs hl
      cases e1 with
      | some e1 => simp only [hl] at h; cases h; exact ⟨a1, a2, a3⟩
      | none =>
        simp only [hl] at h
        obtain ⟨k', b1, b2⟩ := a4 rfl
        obtain ⟨c1, c2, c3⟩ := ih a1 b2 b1 h
        exact ⟨c1, a2.trans c2, c3.trans a3⟩

/-- Loaders return. -/
theorem terminates_runSteps {sts} : ∀ {L known}, LReach LOp.plain L.base → (∀ s ∈ known, (L.base.sorts s).isSome) →
    SafeSteps known sts → ∃ n r, runSteps n L sts = some r := by
  induction sts with
  | nil => intro L known _ _ _; exact ⟨0, _, rfl⟩
  | cons st sts ih =>
    intro L known hr hk hs
    have h1 : ∃ n r, loadStep n L st = some r := by
      cases st with
      | handler k x => exact ⟨0, _, rfl⟩
      | symbol s ss =>
        simp only [loadStep]
        split
        · exact ⟨0, _, rfl⟩
        · split
          · exact ⟨0, _, rfl⟩
          · exact ⟨0, _, rfl⟩
      | decl op =>
        have : op.plain ∧ (∀ s p, op = .attachBuiltin s p → (L.base.sorts p).isSome) := by
          cases op with
          | attachBuiltin s p => simp only [SafeSteps] at hs; exact ⟨trivial, by intro s' p' h; cases h; exact hk _ hs.1⟩
          | sort s p => exact ⟨trivial, by intro s p h; cases h⟩
          | constant c s ok => exact ⟨trivial, by intro s p h; cases h⟩
          | function f ss => exact ⟨trivial, by intro s p h; cases h⟩
          | _ => simp [SafeSteps] at hs
        obtain ⟨n, r, h⟩ := C44_declarations_return_partial hr op this.1 this.2
        refine ⟨n, ?_⟩
        simp only [loadStep, h]
        exact ⟨_, rfl⟩
    obtain ⟨n, ⟨L1, e1⟩, hl⟩ := h1
    cases e1 with
    | some e1 => exact ⟨n, (L1, some e1), by simp only [runSteps, hl]⟩
    | none =>
      obtain ⟨a1, a2, a3, a4⟩ := keeps_loadStep hr hk hs hl
      obtain ⟨k', b1, b2⟩ := a4 rfl
      obtain ⟨m, r, hm⟩ := ih a1 b2 b1
      refine ⟨max n m, r, ?_⟩
      simp only [runSteps, loadStep_le hl (Nat.le_max_left n m)]
      exact runSteps_le (Nat.le_max_right n m) hm

theorem runSteps_append (n : Nat) (b : List LoadStep) : ∀ (a : List LoadStep) (L : TLang) (L' : TLang),
    runSteps n L a = some (L', none) → runSteps n L (a ++ b) = runSteps n L' b := by
  intro a
  induction a with
  | nil => intro L L' h; cases h; rfl
  | cons st a ih =>
    intro L L' h
    simp only [runSteps, List.cons_append] at h ⊢
    cases hl : loadStep n L st with
    | none => simp [hl] at h
    | some q =>
      obtain ⟨L1, e1⟩ := q
      cases e1 with
      | some e1 => simp only [hl] at h; cases h
      | none => simp only [hl] at h ⊢; exact ih _ _ h

theorem runSteps_append_error (n : Nat) (b : List LoadStep) : ∀ (a : List LoadStep) (L : TLang) (L' : TLang) (e : Err),
    runSteps n L a = some (L', some e) → runSteps n L (a ++ b) = some (L', some e) := by
  intro a
  induction a with
  | nil => intro L L' e h; cases h
  | cons st a ih =>
    intro L L' e h
    simp only [runSteps, List.cons_append] at h ⊢
    cases hl : loadStep n L st with
    | none => simp [hl] at h
    | some q =>
      obtain ⟨L1, e1⟩ := q
      cases e1 with
      | some e1 => simp only [hl] at h ⊢; exact h
      | none => simp only [hl] at h ⊢; exact ih _ _ _ h

theorem runSteps_append_none (n : Nat) (b : List LoadStep) : ∀ (a : List LoadStep) (L : TLang),
    runSteps n L a = none → runSteps n L (a ++ b) = none := by
  intro a
  induction a with
  | nil => intro L h; cases h
  | cons st a ih =>
    intro L h
    simp only [runSteps, List.cons_append] at h ⊢
    cases hl : loadStep n L st with
    | none => rfl
    | some q =>
      obtain ⟨L1, e1⟩ := q
      cases e1 with
      | some e1 => simp only [hl] at h; cases h
      | none => simp only [hl] at h ⊢; exact ih _ h

/-! ### Registration of builtin symbols -/

/-- A handler together with the symbol it builds expressions with. -/
structure RegBlock where
  key : OpKey
  handler : Handler
  sym : BSym
  sorts : List String

def RegBlock.steps (b : RegBlock) : List LoadStep := [.handler b.key b.handler, .symbol b.sym b.sorts]

def regSyms (f : BSym → Option (List String)) (bl : List RegBlock) : BSym → Option (List String) :=
  bl.foldl (fun f b => upd f b.sym (some b.sorts)) f

def regOps (f : OpKey → Option Handler) (bl : List RegBlock) : OpKey → Option Handler :=
  bl.foldl (fun f b => upd f b.key (some b.handler)) f

def predBlock (sort : String) (c : Cmp) : RegBlock := ⟨.bin (.pred c), ⟨.pred c, .atom⟩, .pred c, [sort, sort]⟩
def binBlock (f : BFun) : RegBlock := ⟨.bin (.fn f), ⟨.fn f, .term⟩, .fn f, ["Real", "Real", "Real"]⟩
def unBlock (f : BFun) : RegBlock := ⟨.un (.fn f), ⟨.fn f, .term⟩, .fn f, ["Real", "Real"]⟩

def loaderBlocks : Theory → List RegBlock
  | .boolean => []
  | .equality => equalityPredicates.map (predBlock "object")
  | .arithmetic => [binBlock .matmul] ++ arithmeticPredicates.map (predBlock "Real") ++ arithmeticBinary.map binBlock ++
      arithmeticUnary.map unBlock
  | .special => specialBinary.map binBlock ++ specialUnary.map unBlock
  | .random => randomBinary.map binBlock ++ randomUnary.map unBlock

def loaderDecls : Theory → List LoadStep
  | .boolean => [.decl (.sort "Boolean" "object"), .decl (.constant "True" "Boolean" true),
      .decl (.constant "False" "Boolean" true)]
  | .arithmetic => [.decl (.function "ite" ["object", "object", "object"])]
  | _ => []

theorem loaderSteps_eq (t : Theory) : loaderSteps t = loaderDecls t ++ (loaderBlocks t).flatMap RegBlock.steps := by
  cases t <;> rfl

theorem run_blocks_ok (n : Nat) (bl : List RegBlock) : ∀ (L : TLang),
    (∀ b ∈ bl, ∀ x ∈ b.sorts, (L.base.sorts x).isSome) → (∀ b ∈ bl, L.bsyms b.sym = none) → (bl.map (·.sym)).Nodup →
    runSteps n L (bl.flatMap RegBlock.steps) =
      some ({ L with bsyms := regSyms L.bsyms bl, ops := regOps L.ops bl }, none) := by
  induction bl with
  | nil => intro L _ _ _; rfl
  | cons b bl ih =>
    intro L h1 h2 h3
    simp only [List.map_cons, List.nodup_cons] at h3
    have hany : b.sorts.any (fun a => (L.base.sorts a).isNone) = false := by
      rw [List.any_eq_false]
      intro a ha
      have := h1 b (by simp) a ha
      cases hx : L.base.sorts a with
      | none => rw [hx] at this; simp at this
      | some _ => simp
    have hnone : (L.bsyms b.sym).isSome = false := by rw [h2 b (by simp)]; rfl
    simp only [List.flatMap_cons, RegBlock.steps, List.cons_append, List.nil_append, runSteps, loadStep, hany, hnone,
      Bool.false_eq_true, if_false]
    have := ih { L with bsyms := upd L.bsyms b.sym (some b.sorts), ops := upd L.ops b.key (some b.handler) }
      (fun b' hb' => h1 b' (by simp [hb']))
      (fun b' hb' => by
        simp only
        rw [upd_ne]; exact h2 b' (by simp [hb'])
        intro he; exact h3.1 (List.mem_map.mpr ⟨b', hb', he⟩)) h3.2
    simpa [regSyms, regOps] using this

theorem run_blocks_fail (n : Nat) (bl : List RegBlock) (L : TLang) (hne : bl ≠ [])
    (h : ∀ b ∈ bl, ∃ x ∈ b.sorts, L.base.sorts x = none) :
    ∃ L' , runSteps n L (bl.flatMap RegBlock.steps) = some (L', some .undefinedVariable) := by
  cases bl with
  | nil => exact absurd rfl hne
  | cons b bl =>
    obtain ⟨x, hx, hs⟩ := h b (by simp)
    have hany : b.sorts.any (fun a => (L.base.sorts a).isNone) = true := by
      rw [List.any_eq_true]
      exact ⟨x, hx, by rw [hs]; rfl⟩
    simp only [List.flatMap_cons, RegBlock.steps, List.cons_append, List.nil_append, runSteps, loadStep, hany, if_true]
    exact ⟨_, rfl⟩

/-! ### Declarations made by the loaders -/

/-- `L'` is `L` with some new names, parents and sorts, all of them new. -/
structure Adds (L L' : Lang) (new : List (String × LObj)) (par : List (String × String)) (info : List (String × SortInfo)) :
    Prop where
  idx : ∀ x o, L'.index x = some o ↔ L.index x = some o ∨ (x, o) ∈ new
  parent : ∀ x p, L'.ParentOf x p ↔ L.ParentOf x p ∨ (x, p) ∈ par
  sorts : ∀ x i, L'.sorts x = some i ↔ L.sorts x = some i ∨ (x, i) ∈ info
  free : ∀ x o, (x, o) ∈ new → L.index x = none

theorem Adds.refl (L : Lang) : Adds L L [] [] [] := ⟨by simp, by simp, by simp, by simp⟩

theorem Adds.trans {L L' L'' new par info new' par' info'} (h : Adds L L' new par info) (h' : Adds L' L'' new' par' info') :
    Adds L L'' (new ++ new') (par ++ par') (info ++ info') where
  idx x o := by rw [h'.idx, h.idx, List.mem_append, or_assoc]
  parent x o := by rw [h'.parent, h.parent, List.mem_append, or_assoc]
  sorts x o := by rw [h'.sorts, h.sorts, List.mem_append, or_assoc]
  free x o hx := by
    rcases List.mem_append.mp hx with hx | hx
    · exact h.free x o hx
    · have := h'.free x o hx
      cases hi : L.index x with
      | none => rfl
      | some o' => rw [(h.idx x o').mpr (.inl hi)] at this; cases this

theorem adds_attach {n L name i p L'} (hr : LReach LOp.plain L) (hp : (L.sorts p).isSome)
    (h : attachSort n L name i (some p) = some (L', none)) : Adds L L' [(name, .sort name)] [(name, p)] [(name, i)] := by
  rcases keeps_attach hr hp h with ⟨_, h2, h3, h4, h5, h6, h7, h8, _⟩ | ⟨_, h, _⟩
  · have hn := nameInv_reach hr
    have ht := (domInv_reach hr).tree.hier
    have hsn : L.sorts name = none := by
      cases hs : L.sorts name with
      | none => rfl
      | some i' => have := (hn.sort name).mp (by rw [hs]; rfl); rw [h2] at this; cases this
    have hpn : L.parent name = none := by
      have := ht.reg name
      rw [hsn] at this; simpa using this
    refine ⟨?_, ?_, ?_, ?_⟩
    · intro x o
      rw [h5]
      by_cases hx : x = name
      · subst hx; rw [upd_self, h2]; simp [eq_comm]
      · rw [upd_ne _ _ hx]; simp [hx]
    · intro x q
      by_cases hx : x = name
      · subst hx
        simp only [Lang.ParentOf, hpn] at h7 ⊢
        rw [h7]; simp [eq_comm]
      · simp only [Lang.ParentOf, h8 x hx]; simp [hx]
    · intro x o
      rw [h4]
      by_cases hx : x = name
      · subst hx; rw [upd_self, hsn]; simp [eq_comm]
      · rw [upd_ne _ _ hx]; simp [hx]
    · intro x o hx
      simp only [List.mem_singleton, Prod.mk.injEq] at hx
      rw [hx.1]; exact h2
  · cases h

theorem adds_constant {n L name sort L'} (hr : LReach LOp.plain L) (hs : ∃ i, L.sorts sort = some i ∧ i.interval = false ∧ i.builtin = false)
    (h : declConstant n L name sort true = some (L', none)) : Adds L L' [(name, .const name sort)] [] [] := by
  rcases keeps_constant hr hs h with ⟨_, h2, h3, h4, h5, h6, _⟩ | ⟨_, h, _⟩
  · refine ⟨?_, ?_, ?_, ?_⟩
    · intro x o
      rw [h5]
      by_cases hx : x = name
      · subst hx; rw [upd_self, h2]; simp [eq_comm]
      · rw [upd_ne _ _ hx]; simp [hx]
    · intro x q; simp [Lang.ParentOf, h6]
    · intro x o; simp [h4]
    · intro x o hx
      simp only [List.mem_singleton, Prod.mk.injEq] at hx
      rw [hx.1]; exact h2
  · cases h

theorem adds_function {L name ss L'} (hr : LReach LOp.plain L) (hs : ∀ s ∈ ss, (L.sorts s).isSome) (hne : ss ≠ [])
    (h : declFunction L name ss = (L', none)) : Adds L L' [(name, .func name ss)] [] [] := by
  rcases keeps_function hr hs hne h with ⟨_, h2, h3, h4, h5, h6, _⟩ | ⟨_, h, _⟩
  · refine ⟨?_, ?_, ?_, ?_⟩
    · intro x o
      rw [h5]
      by_cases hx : x = name
      · subst hx; rw [upd_self, h2]; simp [eq_comm]
      · rw [upd_ne _ _ hx]; simp [hx]
    · intro x q; simp [Lang.ParentOf, h6]
    · intro x o; simp [h4]
    · intro x o hx
      simp only [List.mem_singleton, Prod.mk.injEq] at hx
      rw [hx.1]; exact h2
  · cases h

/-- One declaration of a loader: it adds an entry, or its name is taken and nothing happens. -/
def DeclStep (L : Lang) (op : LOp) (new : String × LObj) (par : List (String × String)) (info : List (String × SortInfo)) : Prop :=
  ∀ n L' e, lstep n L op = some (L', e) → LReach LOp.plain L' ∧
    ((e = none ∧ Adds L L' [new] par info) ∨ (e ≠ none ∧ L' = L ∧ L.index new.1 ≠ none))

theorem declStep_attach {L name p} (hr : LReach LOp.plain L) (hp : (L.sorts p).isSome) :
    DeclStep L (.attachBuiltin name p) (name, .sort name) [(name, p)] [(name, ⟨true, true⟩)] := by
  intro n L' e h
  refine ⟨.step _ (.attachBuiltin name p) n _ _ hr trivial (by intro _ _ h; cases h) (by intro s' p' h; cases h; exact hp) h, ?_⟩
  simp only [lstep] at h
  cases e with
  | none => exact .inl ⟨rfl, adds_attach hr hp h⟩
  | some e =>
    rcases keeps_attach hr hp h with ⟨h1, _⟩ | ⟨h1, _, h3⟩
    · cases h1
    · exact .inr ⟨by simp, h1, h3⟩

theorem declStep_sort {L name p} (hr : LReach LOp.plain L) (hp : (L.sorts p).isSome) :
    DeclStep L (.sort name p) (name, .sort name) [(name, p)] [(name, ⟨false, false⟩)] := by
  intro n L' e h
  refine ⟨.step _ (.sort name p) n _ _ hr trivial (by intro _ _ h; cases h) (by intro s' p' h; cases h) h, ?_⟩
  simp only [lstep, declSort] at h
  obtain ⟨i, hi⟩ := Option.isSome_iff_exists.mp hp
  simp only [hi] at h
  cases e with
  | none => exact .inl ⟨rfl, adds_attach hr hp h⟩
  | some e =>
    rcases keeps_attach hr hp h with ⟨h1, _⟩ | ⟨h1, _, h3⟩
    · cases h1
    · exact .inr ⟨by simp, h1, h3⟩

theorem declStep_constant {L name s} (hr : LReach LOp.plain L) (hs : ∃ i, L.sorts s = some i ∧ i.interval = false ∧ i.builtin = false) :
    DeclStep L (.constant name s true) (name, .const name s) [] [] := by
  intro n L' e h
  refine ⟨.step _ (.constant name s true) n _ _ hr trivial (by intro _ _ h; cases h) (by intro s' p' h; cases h) h, ?_⟩
  simp only [lstep] at h
  cases e with
  | none => exact .inl ⟨rfl, adds_constant hr hs h⟩
  | some e =>
    rcases keeps_constant hr hs h with ⟨h1, _⟩ | ⟨h1, _, h3⟩
    · cases h1
    · exact .inr ⟨by simp, h1, h3⟩

theorem declStep_function {L name ss} (hr : LReach LOp.plain L) (hs : ∀ s ∈ ss, (L.sorts s).isSome) (hne : ss ≠ []) :
    DeclStep L (.function name ss) (name, .func name ss) [] [] := by
  intro n L' e h
  refine ⟨.step _ (.function name ss) n _ _ hr trivial (by intro _ _ h; cases h) (by intro s' p' h; cases h) h, ?_⟩
  simp only [lstep, Option.some.injEq] at h
  cases e with
  | none => exact .inl ⟨rfl, adds_function hr hs hne h⟩
  | some e =>
    rcases keeps_function hr hs hne h with ⟨h1, _⟩ | ⟨h1, _, h3⟩
    · cases h1
    · exact .inr ⟨by simp, h1, h3⟩

/-- A chain of declarations. -/
inductive DeclChain : Lang → List LOp → List (String × LObj) → List (String × String) → List (String × SortInfo) → Prop where
  | nil L : DeclChain L [] [] [] []
  | cons {L op ops new news par pars info infos} : DeclStep L op new par info →
      (∀ L', LReach LOp.plain L' → Adds L L' [new] par info → DeclChain L' ops news pars infos) →
      DeclChain L (op :: ops) (new :: news) (par ++ pars) (info ++ infos)

theorem run_declChain {n ops} : ∀ {L : TLang} {news pars infos L' e}, LReach LOp.plain L.base →
    DeclChain L.base ops news pars infos → (news.map (·.1)).Nodup → runSteps n L (ops.map LoadStep.decl) = some (L', e) →
    L'.bsyms = L.bsyms ∧ L'.ops = L.ops ∧ L'.theories = L.theories ∧ LReach LOp.plain L'.base ∧
    (e = none → Adds L.base L'.base news pars infos) ∧ (e ≠ none → ∃ x o, (x, o) ∈ news ∧ L.base.index x ≠ none) := by
  induction ops with
  | nil =>
    intro L news pars infos L' e hr hc _ h
    cases hc; cases h
    exact ⟨rfl, rfl, rfl, hr, fun _ => .refl _, fun h => absurd rfl h⟩
  | cons op ops ih =>
    intro L news pars infos L' e hr hc hnd h
    cases hc with
    | cons hst hrest =>
      rename_i new news par pars info infos
      simp only [List.map_cons, List.nodup_cons] at hnd
      simp only [List.map_cons, runSteps, loadStep] at h
      cases hl : lstep n L.base op with
      | none => simp [hl] at h
      | some q =>
        obtain ⟨b, e1⟩ := q
        simp only [hl] at h
        obtain ⟨hr1, h1⟩ := hst n b e1 hl
        rcases h1 with ⟨rfl, ha⟩ | ⟨he, rfl, hx⟩
        · simp only at h
          obtain ⟨a1, a2, a3, a4, a5, a6⟩ := ih (L := { L with base := b }) hr1 (hrest b hr1 ha) hnd.2 h
          refine ⟨a1, a2, a3, a4, fun he => ?_, fun he => ?_⟩
          · exact ha.trans (a5 he)
          · obtain ⟨x, o, hx, hi⟩ := a6 he
            refine ⟨x, o, List.mem_cons_of_mem _ hx, ?_⟩
            intro h0
            obtain ⟨o', ho'⟩ := Option.ne_none_iff_exists'.mp hi
            rcases (ha.idx x o').mp ho' with h' | h'
            · rw [h0] at h'; cases h'
            · simp only [List.mem_singleton] at h'
              apply hnd.1
              rw [← h']
              exact List.mem_map.mpr ⟨_, hx, rfl⟩
        · cases e1 with
          | none => exact absurd rfl he
          | some e1 =>
            simp only at h
            cases h
            exact ⟨rfl, rfl, rfl, hr1, fun h => (by cases h), fun _ => ⟨new.1, new.2, .head _, hx⟩⟩

/-! ### Sorts are never removed -/

theorem sorts_attach {n L name i p L' e} (h : attachSort n L name i p = some (L', e)) {s} (hs : (L.sorts s).isSome) :
    (L'.sorts s).isSome := by
  unfold attachSort at h
  have key : (upd L.sorts name (some i) s).isSome := by
    unfold upd; split
    · rfl
    · exact hs
  cases hc : checkName L (L.sorts name).isSome name with
  | some e' => simp only [hc] at h; cases h; exact hs
  | none =>
    simp only [hc] at h
    cases p with
    | none => simp only at h; cases h; exact key
    | some p => simp only at h; rw [(sameNames_setParent h).1]; exact key

theorem sorts_lstep {n L op L' e} (h : lstep n L op = some (L', e)) {s} (hs : (L.sorts s).isSome) : (L'.sorts s).isSome := by
  cases op with
  | sort name parent =>
    simp only [lstep, declSort] at h
    cases hp : L.sorts parent with
    | none => simp only [hp] at h; cases h; exact hs
    | some _ => simp only [hp] at h; exact sorts_attach h hs
  | attachBuiltin name parent => simp only [lstep] at h; exact sorts_attach h hs
  | attachForeign name => simp only [lstep] at h; exact sorts_attach h hs
  | interval name parent lb ub =>
    simp only [lstep, declInterval] at h
    cases hc : checkName L (L.sorts name).isSome name with
    | some e' => simp only [hc] at h; cases h; exact hs
    | none =>
      simp only [hc] at h
      split at h
      · cases h; exact hs
      split at h
      · cases h; exact hs
      split at h
      · cases h; exact hs
      split at h
      · cases h; exact hs
      rw [(sameNames_setParent h).1]
      simp only [upd]; split
      · rfl
      · exact hs
  | predicate name args =>
    simp only [lstep, declPredicate, Option.some.injEq] at h
    cases hc : checkName L (L.preds name).isSome name with
    | some e' => simp only [hc] at h; cases h; exact hs
    | none =>
      simp only [hc] at h
      split at h
      · cases h; exact hs
      · cases h; exact hs
  | function name args =>
    simp only [lstep, declFunction, Option.some.injEq] at h
    cases hc : checkName L (L.funs name).isSome name with
    | some e' => simp only [hc] at h; cases h; exact hs
    | none =>
      simp only [hc] at h
      split at h
      · cases h; exact hs
      · split at h
        · cases h; exact hs
        · cases h; exact hs
  | constant name sort ok =>
    simp only [lstep, declConstant] at h
    cases hp : L.sorts sort with
    | none => simp only [hp] at h; cases h; exact hs
    | some i =>
      simp only [hp] at h
      split at h
      · cases h; exact hs
      · cases hc : checkName L (L.consts name).isSome name with
        | some e' => simp only [hc] at h; cases h; exact hs
        | none =>
          simp only [hc] at h
          split at h
          · split at h
            · cases h; exact hs
            · cases h; exact hs
          · split at h
            · cases h
            · cases h; exact hs
  | removeSymbol name =>
    simp only [lstep, removeSymbol, Option.some.injEq] at h
    split at h
    · cases h; exact hs
    · split at h
      · cases h; exact hs
      · cases h; exact hs
  | setParent a b =>
    simp only [lstep] at h
    rw [(sameNames_setParent h).1]; exact hs
  | isSubtype a b =>
    simp only [lstep] at h
    cases hi : isSubtype n L a b with
    | none => simp [hi] at h
    | some q =>
      simp only [hi, Option.map_some, Option.some.injEq, Prod.mk.injEq] at h
      obtain ⟨h1, _⟩ := h
      subst h1
      unfold isSubtype at hi
      split at hi
      · cases hi; exact hs
      split at hi
      · cases hi; exact hs
      split at hi
      · cases hi; exact hs
      split at hi
      · cases hi
      · cases hi; exact hs
      · cases hi; exact hs

theorem object_sort {L} (h : LReach LOp.plain L) : (L.sorts "object").isSome := by
  induction h with
  | init => simp [Lang.init, upd]
  | step L op n L' e _ _ _ _ hs ih => exact sorts_lstep hs ih

/-- Declarations of a loader, including those of the numeric sorts when they are missing. -/
def numericDecls (L : Lang) (t : Theory) : List LOp :=
  if t.needsArithmeticSorts && (L.sorts "Integer").isNone then
    [.attachBuiltin "Real" "object", .attachBuiltin "Integer" "Real", .attachBuiltin "Natural" "Integer"] else []

def ownDecls : Theory → List LOp
  | .boolean => [.sort "Boolean" "object", .constant "True" "Boolean" true, .constant "False" "Boolean" true]
  | .arithmetic => [.function "ite" ["object", "object", "object"]]
  | _ => []

theorem theorySteps_eq (L : TLang) (t : Theory) : theorySteps L t =
    (numericDecls L.base t ++ ownDecls t).map LoadStep.decl ++ (loaderBlocks t).flatMap RegBlock.steps := by
  unfold theorySteps numericDecls
  rw [loaderSteps_eq, List.map_append, ← List.append_assoc]
  congr 1
  congr 1
  · split <;> rfl
  · cases t <;> rfl

def numNew (L : Lang) (t : Theory) : List (String × LObj) :=
  if t.needsArithmeticSorts && (L.sorts "Integer").isNone then
    [("Real", .sort "Real"), ("Integer", .sort "Integer"), ("Natural", .sort "Natural")] else []

def numPar (L : Lang) (t : Theory) : List (String × String) :=
  if t.needsArithmeticSorts && (L.sorts "Integer").isNone then
    [("Real", "object"), ("Integer", "Real"), ("Natural", "Integer")] else []

def numInfo (L : Lang) (t : Theory) : List (String × SortInfo) :=
  if t.needsArithmeticSorts && (L.sorts "Integer").isNone then
    [("Real", ⟨true, true⟩), ("Integer", ⟨true, true⟩), ("Natural", ⟨true, true⟩)] else []

def ownNew : Theory → List (String × LObj)
  | .boolean => [("Boolean", .sort "Boolean"), ("True", .const "True" "Boolean"), ("False", .const "False" "Boolean")]
  | .arithmetic => [("ite", .func "ite" ["object", "object", "object"])]
  | _ => []

def ownPar : Theory → List (String × String)
  | .boolean => [("Boolean", "object")]
  | _ => []

def ownInfo : Theory → List (String × SortInfo)
  | .boolean => [("Boolean", ⟨false, false⟩)]
  | _ => []

theorem Adds.some_sort {L L' new par info} (h : Adds L L' new par info) {s} (hs : (L.sorts s).isSome) : (L'.sorts s).isSome := by
  obtain ⟨i, hi⟩ := Option.isSome_iff_exists.mp hs
  rw [(h.sorts s i).mpr (.inl hi)]; rfl

theorem Adds.new_sort {L L' new par info} (h : Adds L L' new par info) {s i} (hs : (s, i) ∈ info) : L'.sorts s = some i :=
  (h.sorts s i).mpr (.inr hs)

theorem ownChain {L} (hr : LReach LOp.plain L) (t : Theory) : DeclChain L (ownDecls t) (ownNew t) (ownPar t) (ownInfo t) := by
  cases t with
  | boolean =>
    refine .cons (info := [("Boolean", ⟨false, false⟩)]) (infos := []) (par := [("Boolean", "object")]) (pars := [])
      (declStep_sort hr (object_sort hr)) fun L1 hr1 h1 => ?_
    refine .cons (info := []) (infos := []) (par := []) (pars := []) (declStep_constant hr1 ⟨_, h1.new_sort (.head _), rfl, rfl⟩)
      fun L2 hr2 h2 => ?_
    refine .cons (info := []) (infos := []) (par := []) (pars := [])
      (declStep_constant hr2 ⟨⟨false, false⟩, (h2.sorts _ _).mpr (.inl (h1.new_sort (.head _))), rfl, rfl⟩)
      fun L3 hr3 h3 => .nil _
  | arithmetic =>
    refine .cons (info := []) (infos := []) (par := []) (pars := []) (declStep_function hr ?_ (by simp)) fun L3 hr3 h3 => .nil _
    intro s hs
    simp only [List.mem_cons, List.not_mem_nil, or_false, or_self] at hs
    subst hs; exact object_sort hr
  | _ => exact .nil _

theorem DeclChain.append {ops ops' news' pars' infos'} : ∀ {L news pars infos}, LReach LOp.plain L →
    DeclChain L ops news pars infos →
    (∀ L', LReach LOp.plain L' → DeclChain L' ops' news' pars' infos') →
    DeclChain L (ops ++ ops') (news ++ news') (pars ++ pars') (infos ++ infos') := by
  induction ops with
  | nil => intro L news pars infos hr h h'; cases h; exact h' L hr
  | cons op ops ih =>
    intro L news pars infos hr h h'
    cases h with
    | cons h1 h2 =>
      rw [List.append_assoc, List.append_assoc]
      exact .cons h1 fun L1 hr1 ha => ih hr1 (h2 L1 hr1 ha) h'

theorem numChain {L} (hr : LReach LOp.plain L) (t : Theory) : DeclChain L (numericDecls L t) (numNew L t) (numPar L t) (numInfo L t) := by
  unfold numericDecls numNew numPar numInfo
  split
  · refine .cons (info := [("Real", ⟨true, true⟩)]) (infos := [("Integer", ⟨true, true⟩), ("Natural", ⟨true, true⟩)])
      (par := [("Real", "object")]) (pars := [("Integer", "Real"), ("Natural", "Integer")])
      (declStep_attach hr (object_sort hr)) fun L1 hr1 h1 => ?_
    refine .cons (info := [("Integer", ⟨true, true⟩)]) (infos := [("Natural", ⟨true, true⟩)])
      (par := [("Integer", "Real")]) (pars := [("Natural", "Integer")])
      (declStep_attach hr1 (by rw [h1.new_sort (.head _)]; rfl)) fun L2 hr2 h2 => ?_
    refine .cons (info := [("Natural", ⟨true, true⟩)]) (infos := [])
      (par := [("Natural", "Integer")]) (pars := [])
      (declStep_attach hr2 (by rw [h2.new_sort (.head _)]; rfl)) fun L3 hr3 h3 => .nil _
  · exact .nil _

/-- What loading a theory does to the declarations of the language. -/
theorem run_decls {n L t L' e} (hr : LReach LOp.plain L.base)
    (h : runSteps n L ((numericDecls L.base t ++ ownDecls t).map LoadStep.decl) = some (L', e)) :
    L'.bsyms = L.bsyms ∧ L'.ops = L.ops ∧ L'.theories = L.theories ∧ LReach LOp.plain L'.base ∧
    (e = none → Adds L.base L'.base (numNew L.base t ++ ownNew t) (numPar L.base t ++ ownPar t) (numInfo L.base t ++ ownInfo t)) ∧
    (e ≠ none → ∃ x o, (x, o) ∈ numNew L.base t ++ ownNew t ∧ L.base.index x ≠ none) := by
  refine run_declChain hr (DeclChain.append hr (numChain hr t) (fun L' hr' => ownChain hr' t)) ?_ h
  unfold numNew
  split <;> cases t <;> simp [ownNew]

end Tarski

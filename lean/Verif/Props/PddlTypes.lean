import Verif.PddlTypes
import Verif.TheoriesLemmas
import Verif.Props.Language
import Mathlib.Tactic.Common
/-! C80: type and object declarations of the PLY-based PDDL reader. -/
namespace Tarski

/-! ### Specification -/

/-- `sub ... - super` occurs in the section with `a` among the subtypes and `b` as supertype. -/
def Below (es : List TypeEntry) (a b : String) : Prop := ∃ subs, .group b subs ∈ es ∧ a ∈ subs

/-- The names that an entry mentions. -/
def TypeEntry.names : TypeEntry → List String
  | .group super subs => super :: subs
  | .single name => [name]

/-- When the reader accepts an entry: `known` are the types so far, `taken` the names in use. A bare name must be new.
A group with a known supertype must list new, distinct names. A group with a new supertype may list known types
(other than `object`) and new names, also repeatedly, but not the supertype itself. -/
def EntryOK (known taken : String → Prop) : TypeEntry → Prop
  | .single name => ¬ taken name
  | .group super subs =>
    (known super ∧ subs.Nodup ∧ ∀ s ∈ subs, ¬ taken s) ∨
    (¬ taken super ∧ super ∉ subs ∧ "object" ∉ subs ∧ ∀ s ∈ subs, known s ∨ ¬ taken s)

/-- When the reader accepts a section. -/
def SectionOK (known taken : String → Prop) : List TypeEntry → Prop
  | [] => True
  | e :: es => EntryOK known taken e ∧ SectionOK (fun a => known a ∨ a ∈ e.names) (fun a => taken a ∨ a ∈ e.names) es

/-! ### Invariant -/

structure TypesInv (st : PInst) : Prop where
  hier : HierInv st.lang
  names : NameInv st.lang
  objTop : ∀ x, ¬ st.lang.HistR "object" x
  objT : "object" ∈ st.types
  typesReg : ∀ t ∈ st.types, st.lang.sorts t = some ⟨false, false⟩
  top : ∀ t ∈ st.types, Star st.lang.HistR t "object"
  histTypes : ∀ a b, st.lang.HistR a b → a ∈ st.types → b ∈ st.types
  rank : ∃ r : String → Nat, ∀ a b, st.lang.HistR a b → r b < r a

theorem TypesInv.anc_rank {st} (h : TypesInv st) : ∃ r : String → Nat, ∀ s p, p ∈ st.lang.anc s → r p < r s := by
  obtain ⟨r, hr⟩ := h.rank
  refine ⟨r, ?_⟩
  have hst : ∀ a b, Star st.lang.HistR a b → r b ≤ r a := by
    intro a b h
    induction h with
    | refl => exact Nat.le_refl _
    | step a b c h1 _ ih => have := hr a b h1; omega
  intro s p hp
  obtain ⟨b, h1, h2⟩ := h.hier.ancHist s p hp
  have h3 := hr s b h1
  have h4 := hst b p h2
  omega

/-- Set of names in use. -/
def Taken (st : PInst) (a : String) : Prop := st.lang.index a ≠ none

theorem TypesInv.known_taken {st} (h : TypesInv st) {t} (ht : t ∈ st.types) : Taken st t := by
  have := (h.names.sort t).mp (by rw [h.typesReg t ht]; rfl)
  simp [Taken, this]

theorem index_none_sorts {L : Lang} (h : NameInv L) {a} (ha : L.index a = none) : L.sorts a = none := by
  cases hs : L.sorts a with
  | none => rfl
  | some i =>
    have := (h.sort a).mp (by rw [hs]; rfl)
    rw [ha] at this; cases this

theorem lstep_mono_le {n m L op r} (h : lstep n L op = some r) (hm : n ≤ m) : lstep m L op = some r := by
  induction m with
  | zero => have : n = 0 := by omega
            subst this; exact h
  | succ m ih =>
    by_cases hnm : n ≤ m
    · exact lstep_mono (ih hnm)
    · have : n = m + 1 := by omega
      subst this; exact h

/-! ### One declaration -/

/-- What a successful declaration changes. -/
structure Declares1 (st st' : PInst) (s p : String) : Prop where
  inv : TypesInv st'
  types : st'.types = s :: st.types
  hist : st'.lang.hist = (s, p) :: st.lang.hist
  index : ∀ a, Taken st' a ↔ Taken st a ∨ a = s
  par : st'.lang.ParentOf s p
  parOther : ∀ x, x ≠ s → st'.lang.parent x = st.lang.parent x
  same : st'.lang.dom = st.lang.dom ∧ st'.lang.consts = st.lang.consts

theorem declType_fails {st : PInst} (h : TypesInv st) {s p} (hp : p ∈ st.types) (hs : Taken st s) (n : Nat) :
    declType n st s p = some (st, some .duplicateVariable) := by
  unfold declType declSort
  rw [h.typesReg p hp]
  simp only
  have : checkName st.lang (st.lang.sorts s).isSome s = some .duplicateVariable := by
    unfold checkName
    cases hx : st.lang.index s with
    | none => exact absurd hx hs
    | some o => cases (st.lang.sorts s).isSome <;> simp
  simp [attachSort, this]

theorem declType_inv {st : PInst} (h : TypesInv st) {s p} (hp : p ∈ st.types) {n st'}
    (hd : declType n st s p = some (st', none)) : Declares1 st st' s p ∧ ¬ Taken st s := by
  by_cases hs : Taken st s
  · rw [declType_fails h hp hs] at hd; cases hd
  · refine ⟨?_, hs⟩
    have hidx : st.lang.index s = none := by simpa [Taken] using hs
    have hsort := index_none_sorts h.names hidx
    unfold declType at hd
    split at hd
    · cases hd
    · cases hd
    · rename_i L hL
      cases hd
      have hni : NameInv L := nameInv_step (op := .sort s p) h.names hL
      unfold declSort at hL
      rw [h.typesReg p hp] at hL
      simp only at hL
      unfold attachSort at hL
      have hck : checkName st.lang (st.lang.sorts s).isSome s = none := by simp [checkName, hsort, hidx]
      rw [hck] at hL
      simp only at hL
      obtain ⟨_, hh, hhist, hpar, hpo, _, _, hso, hix, hdom, hco, _, _⟩ :=
        attach_ok h.hier (by rw [h.typesReg p hp]; rfl) hsort hL
      have hne : s ∉ st.types := fun hm => hs (h.known_taken hm)
      have hso' : s ≠ "object" := fun e => hne (e ▸ h.objT)
      have hHR : ∀ a b, L.HistR a b ↔ (a = s ∧ b = p) ∨ st.lang.HistR a b := by
        intro a b; simp [Lang.HistR, hhist]
      have hold : ∀ x, ¬ st.lang.HistR s x ∧ ¬ st.lang.HistR x s := by
        intro x
        constructor
        · intro hx; have := (h.hier.histReg _ _ hx).1; simp [hsort] at this
        · intro hx; have := (h.hier.histReg _ _ hx).2; simp [hsort] at this
      have hps : p ≠ s := fun e => hne (e ▸ hp)
      refine ⟨⟨hh, hni, ?_, ?_, ?_, ?_, ?_, ?_⟩, rfl, hhist, ?_, hpar, hpo, ⟨hdom, hco⟩⟩
      · intro x hx
        rcases (hHR _ _).mp hx with ⟨e, _⟩ | hx
        · exact hso' e.symm
        · exact h.objTop _ hx
      · exact List.mem_cons_of_mem _ h.objT
      · intro t ht
        rw [hso]
        rcases List.mem_cons.mp ht with rfl | ht2
        · exact upd_self _ _ _
        · rw [upd_ne _ _ (by rintro rfl; exact hne ht2)]; exact h.typesReg t ht2
      · intro t ht
        have hm : ∀ x, Star st.lang.HistR x "object" → Star L.HistR x "object" :=
          fun x => Star.mono (fun a b hab => (hHR a b).mpr (.inr hab))
        rcases List.mem_cons.mp ht with rfl | ht
        · exact .step _ p _ ((hHR _ _).mpr (.inl ⟨rfl, rfl⟩)) (hm _ (h.top p hp))
        · exact hm _ (h.top t ht)
      · intro a b hab ha
        rcases (hHR _ _).mp hab with ⟨_, rfl⟩ | hab2
        · exact List.mem_cons_of_mem _ hp
        · rcases List.mem_cons.mp ha with rfl | ha
          · exact absurd hab2 (hold _).1
          · exact List.mem_cons_of_mem _ (h.histTypes _ _ hab2 ha)
      · obtain ⟨r, hr⟩ := h.rank
        refine ⟨upd r s (r p + 1), ?_⟩
        intro a b hab
        rcases (hHR _ _).mp hab with ⟨rfl, rfl⟩ | hab2
        · rw [upd_self, upd_ne _ _ hps]; omega
        · have h1 : a ≠ s := by rintro rfl; exact (hold _).1 hab2
          have h2 : b ≠ s := by rintro rfl; exact (hold _).2 hab2
          rw [upd_ne _ _ h1, upd_ne _ _ h2]; exact hr _ _ hab2
      · intro a
        simp only [Taken, hix]
        by_cases ha : a = s
        · subst ha; simp [upd]
        · simp [upd, ha]

theorem declType_returns {st : PInst} (h : TypesInv st) {s p} (hp : p ∈ st.types) (hs : ¬ Taken st s) :
    ∃ N, ∀ n, N ≤ n → ∃ st', declType n st s p = some (st', none) := by
  have hidx : st.lang.index s = none := by simpa [Taken] using hs
  have hsort := index_none_sorts h.names hidx
  have hps : p ≠ s := fun e => hs (h.known_taken (e ▸ hp))
  obtain ⟨r, hr⟩ := h.rank
  have hr' : ∀ a b, upd st.lang.parent s (some (some p)) a = some (some b) →
      upd r s (r p + 1) b < upd r s (r p + 1) a := by
    intro a b hab
    by_cases ha : a = s
    · subst ha
      rw [upd_self] at hab; cases hab
      rw [upd_self, upd_ne _ _ hps]; omega
    · rw [upd_ne _ _ ha] at hab
      have hb : b ≠ s := by
        rintro rfl
        have := h.hier.parReg _ _ hab
        rw [hsort] at this; simp at this
      rw [upd_ne _ _ ha, upd_ne _ _ hb]
      exact hr a b (h.hier.parHist _ _ hab)
  refine ⟨upd r s (r p + 1) p + 1, fun n hn => ?_⟩
  obtain ⟨o, ho⟩ := inclusionClosure_terminates _ _ hr' n p hn
  have hret : ∃ x, declSort n st.lang s p = some x := by
    unfold declSort
    rw [h.typesReg p hp]
    simp only [attachSort, checkName, hsort, hidx, setParent]
    simp only [Option.isSome_none, Bool.false_eq_true, if_false]
    split
    · exact ⟨_, rfl⟩
    · rw [ho]
      cases o <;> exact ⟨_, rfl⟩
  obtain ⟨⟨L, e⟩, hx⟩ := hret
  cases e with
  | none => exact ⟨⟨s :: st.types, L⟩, by simp [declType, hx]⟩
  | some e =>
    exfalso
    unfold declSort at hx
    rw [h.typesReg p hp] at hx
    simp only at hx
    unfold attachSort at hx
    have hck : checkName st.lang (st.lang.sorts s).isSome s = none := by simp [checkName, hsort, hidx]
    rw [hck] at hx
    simp only at hx
    have := (attach_ok h.hier (by rw [h.typesReg p hp]; rfl) hsort hx).1
    cases this

/-! ### One re-parenting -/

/-- What re-parenting changes. -/
structure Reparents (st st' : PInst) (s p : String) : Prop where
  inv : TypesInv st'
  types : st'.types = st.types
  hist : st'.lang.hist = (s, p) :: st.lang.hist
  index : ∀ a, Taken st' a ↔ Taken st a
  par : st'.lang.ParentOf s p
  parOther : ∀ x, x ≠ s → st'.lang.parent x = st.lang.parent x
  same : st'.lang.dom = st.lang.dom ∧ st'.lang.consts = st.lang.consts

theorem setParent_same {n L s p ow L' e} (h : setParent n L s p ow = some (L', e)) :
    L'.dom = L.dom ∧ L'.consts = L.consts := by
  unfold setParent at h
  split at h
  · cases h; exact ⟨rfl, rfl⟩
  · simp only at h
    split at h <;> cases h <;> exact ⟨rfl, rfl⟩

theorem reparent_inv {st : PInst} (h : TypesInv st) {s p} (hs : s ∈ st.types) (hp : p ∈ st.types)
    (hso : s ≠ "object") (hsp : s ≠ p) (hpo : p ≠ "object") (hfr : ∀ x, st.lang.HistR p x → x = "object") {n L e}
    (hd : setParent n st.lang s p true = some (L, e)) : e = none ∧ Reparents st { st with lang := L } s p := by
  have hreg : ∀ t ∈ st.types, (st.lang.sorts t).isSome := fun t ht => by rw [h.typesReg t ht]; rfl
  obtain ⟨hh, hok, herr⟩ := hier_setParent h.hier (hreg s hs) (hreg p hp) hd
  have he : e = none := by
    by_contra he
    exact absurd (herr he).2.1 (by simp)
  obtain ⟨hpar, hpo', hhist⟩ := hok he
  have hsn := sameNames_setParent hd
  have hni : NameInv L := nameInv_same hsn h.names
  have hix : L.index = st.lang.index := hsn.2.2.2.2
  have hso2 : L.sorts = st.lang.sorts := by
    obtain ⟨h1, _⟩ := hsn; exact h1
  have hHR : ∀ a b, L.HistR a b ↔ (a = s ∧ b = p) ∨ st.lang.HistR a b := by
    intro a b; simp [Lang.HistR, hhist]
  refine ⟨he, ⟨hh, hni, ?_, h.objT, ?_, ?_, ?_, ?_⟩, rfl, hhist, ?_, hpar, hpo', setParent_same hd⟩
  · intro x hx
    rcases (hHR _ _).mp hx with ⟨e, _⟩ | hx
    · exact hso e.symm
    · exact h.objTop _ hx
  · intro t ht; dsimp only; rw [hso2]; exact h.typesReg t ht
  · intro t ht
    exact Star.mono (fun a b hab => (hHR a b).mpr (.inr hab)) (h.top t ht)
  · intro a b hab ha
    rcases (hHR _ _).mp hab with ⟨_, rfl⟩ | hab
    · exact hp
    · exact h.histTypes _ _ hab ha
  · obtain ⟨r, hr⟩ := h.rank
    refine ⟨fun x => if x = "object" then 0 else if x = p then 1 else r x + 2, ?_⟩
    intro a b hab
    dsimp only
    rcases (hHR _ _).mp hab with ⟨rfl, rfl⟩ | hab
    · simp [hso, hsp, hpo]
    · have ha : a ≠ "object" := by rintro rfl; exact h.objTop _ hab
      by_cases hap : a = p
      · subst hap
        have := hfr _ hab
        subst this
        simp [ha]
      · rw [if_neg ha, if_neg hap]
        have := hr _ _ hab
        split
        · omega
        · split <;> omega
  · intro a; simp [Taken, hix]

theorem reparent_returns {st : PInst} (h : TypesInv st) {s p} (hs : s ∈ st.types) (hp : p ∈ st.types)
    (hso : s ≠ "object") (hsp : s ≠ p) (hpo : p ≠ "object") (hfr : ∀ x, st.lang.HistR p x → x = "object") :
    ∃ N, ∀ n, N ≤ n → ∃ L, setParent n st.lang s p true = some (L, none) := by
  obtain ⟨r, hr⟩ := h.rank
  refine ⟨2, fun n hn => ?_⟩
  have hr' : ∀ a b, upd st.lang.parent s (some (some p)) a = some (some b) →
      (fun x => if x = "object" then 0 else if x = p then 1 else r x + 2) b <
      (fun x => if x = "object" then 0 else if x = p then 1 else r x + 2) a := by
    intro a b hab
    dsimp only
    by_cases has : a = s
    · subst has
      rw [upd_self] at hab; cases hab
      simp [hso, hsp, hpo]
    · rw [upd_ne _ _ has] at hab
      have hab := h.hier.parHist _ _ hab
      have ha : a ≠ "object" := by rintro rfl; exact h.objTop _ hab
      by_cases hap : a = p
      · subst hap
        have := hfr _ hab
        subst this
        simp [ha]
      · rw [if_neg ha, if_neg hap]
        have := hr _ _ hab
        split
        · omega
        · split <;> omega
  obtain ⟨o, ho⟩ := inclusionClosure_terminates _ _ hr' n p (by simp [hpo]; omega)
  have : ∃ x, setParent n st.lang s p true = some x := by
    simp only [setParent]
    simp only [Bool.not_true, Bool.false_and, Bool.false_eq_true, if_false]
    rw [ho]
    cases o <;> exact ⟨_, rfl⟩
  obtain ⟨⟨L, e⟩, hx⟩ := this
  have := (reparent_inv h hs hp hso hsp hpo hfr hx).1
  subst this
  exact ⟨L, hx⟩

theorem declType_stable {st : PInst} (h : TypesInv st) {s p} (hp : p ∈ st.types) (hs : ¬ Taken st s) :
    ∃ N st', ∀ n, N ≤ n → declType n st s p = some (st', none) := by
  obtain ⟨N, hN⟩ := declType_returns h hp hs
  obtain ⟨st', h1⟩ := hN N (Nat.le_refl _)
  refine ⟨N, st', fun n hn => ?_⟩
  unfold declType at h1 ⊢
  split at h1
  · cases h1
  · cases h1
  · rename_i L hL
    have : declSort n st.lang s p = some (L, none) := lstep_mono_le (op := .sort s p) hL hn
    rw [this]
    exact h1

theorem reparent_stable {st : PInst} (h : TypesInv st) {s p} (hs : s ∈ st.types) (hp : p ∈ st.types)
    (hso : s ≠ "object") (hsp : s ≠ p) (hpo : p ≠ "object") (hfr : ∀ x, st.lang.HistR p x → x = "object") :
    ∃ N L, ∀ n, N ≤ n → setParent n st.lang s p true = some (L, none) := by
  obtain ⟨N, hN⟩ := reparent_returns h hs hp hso hsp hpo hfr
  obtain ⟨L, h1⟩ := hN N (Nat.le_refl _)
  exact ⟨N, L, fun n hn => lstep_mono_le (op := .setParent s p) h1 hn⟩

/-! ### Several declarations -/

/-- Effect of a piece of the section that mentions `names`, states the pairs `P` and says last that the parent of a
name is `last`. -/
structure Grown (st st' : PInst) (names : List String) (P : String → String → Prop) (last : String → Option String) :
    Prop where
  inv : TypesInv st'
  types : ∀ a, a ∈ st'.types ↔ a ∈ st.types ∨ a ∈ names
  taken : ∀ a, Taken st' a ↔ Taken st a ∨ a ∈ names
  fresh : ∀ a ∈ names, a ∉ st.types → ¬ Taken st a
  histIn : ∀ a b, st'.lang.HistR a b → st.lang.HistR a b ∨ P a b ∨ b = "object" ∧ a ∉ st.types
  histOut : ∀ a b, st.lang.HistR a b ∨ P a b → st'.lang.HistR a b
  lastNames : ∀ t p, last t = some p → t ∈ names
  par : ∀ t p, last t = some p → st'.lang.ParentOf t p
  parOld : ∀ t, last t = none → t ∈ st.types → st'.lang.parent t = st.lang.parent t
  parNew : ∀ t ∈ st'.types, last t = none → t ∉ st.types → st'.lang.ParentOf t "object"
  same : st'.lang.dom = st.lang.dom ∧ st'.lang.consts = st.lang.consts

theorem Grown.refl {st} (h : TypesInv st) : Grown st st [] (fun _ _ => False) (fun _ => none) :=
  ⟨h, by simp, by simp, by simp, by tauto, by tauto, by simp, by simp, by simp, fun t h1 _ h2 => absurd h1 h2, ⟨rfl, rfl⟩⟩

theorem Grown.trans {st st1 st2 n1 n2 P1 P2 l1 l2} (h1 : Grown st st1 n1 P1 l1) (h2 : Grown st1 st2 n2 P2 l2) :
    Grown st st2 (n1 ++ n2) (fun a b => P1 a b ∨ P2 a b) (fun t => (l2 t).or (l1 t)) := by
  refine ⟨h2.inv, ?_, ?_, ?_, ?_, ?_, ?_, ?_, ?_, ?_, ?_⟩
  · intro a; rw [h2.types, h1.types, List.mem_append, or_assoc]
  · intro a; rw [h2.taken, h1.taken, List.mem_append, or_assoc]
  · intro a ha hn
    by_cases ha1 : a ∈ n1
    · exact h1.fresh a ha1 hn
    · have ha2 : a ∈ n2 := by simpa [ha1] using ha
      have : ¬ Taken st1 a := h2.fresh a ha2 (by rw [h1.types]; tauto)
      intro ht; exact this ((h1.taken a).mpr (.inl ht))
  · intro a b hab
    rcases h2.histIn a b hab with hab | hab | ⟨hb, ha⟩
    · rcases h1.histIn a b hab with hab | hab | hab <;> tauto
    · tauto
    · right; right; exact ⟨hb, fun h => ha ((h1.types a).mpr (.inl h))⟩
  · rintro a b (hab | hab | hab)
    · exact h2.histOut _ _ (.inl (h1.histOut _ _ (.inl hab)))
    · exact h2.histOut _ _ (.inl (h1.histOut _ _ (.inr hab)))
    · exact h2.histOut _ _ (.inr hab)
  · intro t p hl
    cases hl2 : l2 t with
    | some q => exact List.mem_append_right _ (h2.lastNames t q hl2)
    | none => rw [hl2, Option.none_or] at hl; exact List.mem_append_left _ (h1.lastNames t p hl)
  · intro t p hl
    cases hl2 : l2 t with
    | some q => simp only [hl2, Option.some_or, Option.some.injEq] at hl; subst hl; exact h2.par t _ hl2
    | none =>
      simp only [hl2, Option.none_or] at hl
      have hp := h1.par t p hl
      have := h2.parOld t hl2 ((h1.types t).mpr (.inr (h1.lastNames t p hl)))
      unfold Lang.ParentOf at hp ⊢
      rw [this]; exact hp
  · intro t hl ht
    rw [Option.or_eq_none_iff] at hl
    rw [h2.parOld t hl.1 ((h1.types t).mpr (.inl ht)), h1.parOld t hl.2 ht]
  · intro t ht hl hn
    rw [Option.or_eq_none_iff] at hl
    by_cases h0 : t ∈ st1.types
    · have := h1.parNew t h0 hl.2 hn
      unfold Lang.ParentOf at this ⊢
      rw [h2.parOld t hl.1 h0]; exact this
    · exact h2.parNew t ht hl.1 h0
  · exact ⟨h2.same.1.trans h1.same.1, h2.same.2.trans h1.same.2⟩

theorem Grown.congr {st st' n1 n2 P1 P2 l1 l2} (h : Grown st st' n1 P1 l1) (hn : ∀ a, a ∈ n1 ↔ a ∈ n2)
    (hP : ∀ a b, P1 a b ↔ P2 a b) (hl : ∀ t, l1 t = l2 t) : Grown st st' n2 P2 l2 := by
  have hl' : l1 = l2 := funext hl
  have hP' : P1 = P2 := by funext a b; exact propext (hP a b)
  subst hl' hP'
  exact ⟨h.inv, fun a => by rw [h.types, hn], fun a => by rw [h.taken, hn], fun a ha => h.fresh a ((hn a).mpr ha),
    h.histIn, h.histOut, fun t p hx => (hn t).mp (h.lastNames t p hx), h.par, h.parOld, h.parNew, h.same⟩

/-- The parent given by a group. -/
def groupLast (super : String) (subs : List String) (t : String) : Option String := if t ∈ subs then some super else none

theorem Declares1.grown {st st' s p} (h : Declares1 st st' s p) (hf : ¬ Taken st s) :
    Grown st st' [s] (fun a b => a ∈ [s] ∧ b = p) (groupLast p [s]) := by
  refine ⟨h.inv, ?_, ?_, ?_, ?_, ?_, ?_, ?_, ?_, ?_, h.same⟩
  · intro a; rw [h.types]; simp [or_comm]
  · intro a; rw [h.index]; simp
  · intro a ha _; simp at ha; subst ha; exact hf
  · intro a b hab
    simp only [Lang.HistR, h.hist, List.mem_cons, Prod.mk.injEq] at hab
    rcases hab with ⟨rfl, rfl⟩ | hab
    · right; left; simp
    · left; exact hab
  · rintro a b (hab | ⟨ha, rfl⟩)
    · simp only [Lang.HistR, h.hist]; exact List.mem_cons_of_mem _ hab
    · simp at ha; subst ha; simp [Lang.HistR, h.hist]
  · intro t q hl; unfold groupLast at hl; split at hl
    · assumption
    · cases hl
  · intro t q hl; unfold groupLast at hl; split at hl
    · cases hl; rename_i ht; simp at ht; subst ht; exact h.par
    · cases hl
  · intro t hl ht; unfold groupLast at hl; split at hl
    · cases hl
    · rename_i hts; exact h.parOther t (by simpa using hts)
  · intro t ht hl hn; exfalso; unfold groupLast at hl; split at hl
    · cases hl
    · rename_i hts; rw [h.types] at ht; simp at hts; simp [hts, hn] at ht

/-- A declaration under `object` for which the text states no pair. -/
theorem Declares1.grownTop {st st' s} (h : Declares1 st st' s "object") (hf : ¬ Taken st s) (hns : s ∉ st.types) :
    Grown st st' [s] (fun _ _ => False) (fun _ => none) := by
  refine ⟨h.inv, ?_, ?_, ?_, ?_, ?_, by simp, by simp, ?_, ?_, h.same⟩
  · intro a; rw [h.types]; simp [or_comm]
  · intro a; rw [h.index]; simp
  · intro a ha _; simp at ha; subst ha; exact hf
  · intro a b hab
    simp only [Lang.HistR, h.hist, List.mem_cons, Prod.mk.injEq] at hab
    rcases hab with ⟨rfl, rfl⟩ | hab
    · right; right; exact ⟨rfl, hns⟩
    · left; exact hab
  · rintro a b (hab | ⟨⟨⟩⟩)
    simp only [Lang.HistR, h.hist]; exact List.mem_cons_of_mem _ hab
  · intro t _ ht; exact h.parOther t (by rintro rfl; exact hns ht)
  · intro t ht _ hn
    rw [h.types] at ht
    rcases List.mem_cons.mp ht with rfl | ht
    · exact h.par
    · exact absurd ht hn

theorem Reparents.grown {st st' s p} (h : Reparents st st' s p) (hi : TypesInv st) (hs : s ∈ st.types) :
    Grown st st' [s] (fun a b => a ∈ [s] ∧ b = p) (groupLast p [s]) := by
  refine ⟨h.inv, ?_, ?_, ?_, ?_, ?_, ?_, ?_, ?_, ?_, h.same⟩
  · intro a; rw [h.types]; simp; rintro rfl; exact hs
  · intro a; rw [h.index]; simp; rintro rfl; exact hi.known_taken hs
  · intro a ha hn; simp at ha; subst ha; exact absurd hs hn
  · intro a b hab
    simp only [Lang.HistR, h.hist, List.mem_cons, Prod.mk.injEq] at hab
    rcases hab with ⟨rfl, rfl⟩ | hab
    · right; left; simp
    · left; exact hab
  · rintro a b (hab | ⟨ha, rfl⟩)
    · simp only [Lang.HistR, h.hist]; exact List.mem_cons_of_mem _ hab
    · simp at ha; subst ha; simp [Lang.HistR, h.hist]
  · intro t q hl; unfold groupLast at hl; split at hl
    · assumption
    · cases hl
  · intro t q hl; unfold groupLast at hl; split at hl
    · cases hl; rename_i ht; simp at ht; subst ht; exact h.par
    · cases hl
  · intro t hl ht; unfold groupLast at hl; split at hl
    · cases hl
    · rename_i hts; exact h.parOther t (by simpa using hts)
  · intro t ht hl hn; rw [h.types] at ht; exact absurd ht hn

theorem Grown.cons {st st1 st2 p s ss} (h1 : Grown st st1 [s] (fun a b => a ∈ [s] ∧ b = p) (groupLast p [s]))
    (h2 : Grown st1 st2 ss (fun a b => a ∈ ss ∧ b = p) (groupLast p ss)) :
    Grown st st2 (s :: ss) (fun a b => a ∈ s :: ss ∧ b = p) (groupLast p (s :: ss)) := by
  refine (h1.trans h2).congr ?_ ?_ ?_
  · intro a; simp
  · intro a b; simp only [List.mem_cons, List.not_mem_nil, or_false]; tauto
  · intro t
    unfold groupLast
    by_cases hs : t = s
    · subst hs; by_cases ht : t ∈ ss <;> simp [ht]
    · by_cases ht : t ∈ ss <;> simp [ht, hs]

/-! ### The loop over the subtypes -/

theorem Grown.reflG {st} (p : String) (h : TypesInv st) :
    Grown st st [] (fun a b => a ∈ ([] : List String) ∧ b = p) (groupLast p []) :=
  (Grown.refl h).congr (by simp) (by simp) (by simp [groupLast])

theorem subDefs_known {sup n} : ∀ {subs st st'}, TypesInv st → sup ∈ st.types →
    subDefs n sup false st subs = some (st', none) →
    (subs.Nodup ∧ ∀ s ∈ subs, ¬ Taken st s) ∧ Grown st st' subs (fun a b => a ∈ subs ∧ b = sup) (groupLast sup subs) := by
  intro subs
  induction subs with
  | nil => intro st st' h hs hd; simp only [subDefs] at hd; cases hd; exact ⟨by simp, .reflG _ h⟩
  | cons s ss ih =>
    intro st st' h hs hd
    simp only [subDefs] at hd
    split at hd
    · cases hd
    · rename_i hns
      split at hd
      · cases hd
      · cases hd
      · rename_i st1 h1
        obtain ⟨hdec, hfree⟩ := declType_inv h hs h1
        have hg := hdec.grown hfree
        have hs1 : sup ∈ st1.types := (hg.types _).mpr (.inl hs)
        obtain ⟨⟨hnd, hall⟩, hg2⟩ := ih hg.inv hs1 hd
        refine ⟨⟨?_, ?_⟩, hg.cons hg2⟩
        · rw [List.nodup_cons]
          exact ⟨fun hm => hall s hm ((hg.taken s).mpr (.inr (by simp))), hnd⟩
        · intro x hx
          rcases List.mem_cons.mp hx with rfl | hx
          · exact hfree
          · exact fun ht => hall x hx ((hg.taken x).mpr (.inl ht))

theorem subDefs_known_returns {sup} : ∀ {subs st}, TypesInv st → sup ∈ st.types → subs.Nodup →
    (∀ s ∈ subs, ¬ Taken st s) → ∃ N st', ∀ n, N ≤ n → subDefs n sup false st subs = some (st', none) := by
  intro subs
  induction subs with
  | nil => intro st h hs _ _; exact ⟨0, st, by simp [subDefs]⟩
  | cons s ss ih =>
    intro st h hs hnd hall
    have hfree := hall s (by simp)
    have hns : s ∉ st.types := fun hm => hfree (h.known_taken hm)
    obtain ⟨N1, st1, h1⟩ := declType_stable h hs hfree
    obtain ⟨hdec, _⟩ := declType_inv h hs (h1 N1 (Nat.le_refl _))
    have hg := hdec.grown hfree
    rw [List.nodup_cons] at hnd
    obtain ⟨N2, st2, h2⟩ := ih hg.inv ((hg.types _).mpr (.inl hs)) hnd.2 (by
      intro x hx ht
      rcases (hg.taken x).mp ht with ht | ht
      · exact hall x (by simp [hx]) ht
      · simp at ht; subst ht; exact hnd.1 hx)
    refine ⟨max N1 N2, st2, fun n hn => ?_⟩
    simp only [subDefs, hns, if_false, h1 n (by omega), h2 n (by omega)]

theorem subDefs_new {sup n} : ∀ {subs st st'}, TypesInv st → sup ∈ st.types → sup ≠ "object" →
    (∀ x, st.lang.HistR sup x → x = "object") → st.lang.ParentOf sup "object" →
    subDefs n sup true st subs = some (st', none) →
    (sup ∉ subs ∧ "object" ∉ subs ∧ ∀ s ∈ subs, s ∈ st.types ∨ ¬ Taken st s) ∧
      Grown st st' subs (fun a b => a ∈ subs ∧ b = sup) (groupLast sup subs) := by
  intro subs
  induction subs with
  | nil => intro st st' h hs _ _ _ hd; simp only [subDefs] at hd; cases hd; exact ⟨by simp, .reflG _ h⟩
  | cons s ss ih =>
    intro st st' h hs hso hfr hpar hd
    simp only [subDefs] at hd
    -- once the first name is processed
    have fin : ∀ st1, Grown st st1 [s] (fun a b => a ∈ [s] ∧ b = sup) (groupLast sup [s]) → s ≠ sup → s ≠ "object" →
        (s ∈ st.types ∨ ¬ Taken st s) → subDefs n sup true st1 ss = some (st', none) →
        (sup ∉ s :: ss ∧ "object" ∉ s :: ss ∧ ∀ x ∈ s :: ss, x ∈ st.types ∨ ¬ Taken st x) ∧
        Grown st st' (s :: ss) (fun a b => a ∈ s :: ss ∧ b = sup) (groupLast sup (s :: ss)) := by
      intro st1 hg hsp hsob hsk hd1
      have hp1 : st1.lang.ParentOf sup "object" := by
        have := hg.parOld sup (by simp [groupLast, Ne.symm hsp]) hs
        unfold Lang.ParentOf at hpar ⊢
        rw [this]; exact hpar
      obtain ⟨⟨ha, hb, hc⟩, hg2⟩ := ih hg.inv ((hg.types _).mpr (.inl hs)) hso (by
        intro x hx
        rcases hg.histIn _ _ hx with hx | hx | hx
        · exact hfr x hx
        · simp at hx; exact absurd hx.1.symm hsp
        · exact hx.1) hp1 hd1
      refine ⟨⟨?_, ?_, ?_⟩, hg.cons hg2⟩
      · simp [ha, Ne.symm hsp]
      · simp [hb, Ne.symm hsob]
      · intro x hx
        by_cases hxs : x = s
        · subst hxs; exact hsk
        · have hx' : x ∈ ss := by simpa [hxs] using hx
          rcases hc x hx' with hk | hk
          · left; simpa [hxs] using (hg.types x).mp hk
          · right; exact fun ht => hk ((hg.taken x).mpr (.inl ht))
    split at hd
    · rename_i hks
      have hsp : s ≠ sup := by
        rintro rfl
        rw [setParent_cycle (.refl _)] at hd
        simp at hd
      have hsob : s ≠ "object" := by
        rintro rfl
        rw [setParent_cycle (Star.single hpar)] at hd
        simp at hd
      rw [if_pos trivial] at hd
      split at hd
      · cases hd
      · cases hd
      · rename_i L hL
        have hr := (reparent_inv h hks hs hsob hsp hso hfr hL).2
        exact fin _ (hr.grown h hks) hsp hsob (.inl hks) hd
    · rename_i hns
      split at hd
      · cases hd
      · cases hd
      · rename_i st1 h1
        obtain ⟨hdec, hfree⟩ := declType_inv h hs h1
        exact fin _ (hdec.grown hfree) (by rintro rfl; exact hns hs) (by rintro rfl; exact hns h.objT) (.inr hfree) hd

theorem subDefs_new_returns {sup} : ∀ {subs st}, TypesInv st → sup ∈ st.types → sup ≠ "object" →
    (∀ x, st.lang.HistR sup x → x = "object") → sup ∉ subs → "object" ∉ subs →
    (∀ s ∈ subs, s ∈ st.types ∨ ¬ Taken st s) →
    ∃ N st', ∀ n, N ≤ n → subDefs n sup true st subs = some (st', none) := by
  intro subs
  induction subs with
  | nil => intro st h hs _ _ _ _ _; exact ⟨0, st, by simp [subDefs]⟩
  | cons s ss ih =>
    intro st h hs hso hfr hns hno hall
    have hsp : s ≠ sup := fun e => hns (by simp [e])
    have hsob : s ≠ "object" := fun e => hno (by simp [e])
    have next : ∀ st1, Grown st st1 [s] (fun a b => a ∈ [s] ∧ b = sup) (groupLast sup [s]) →
        ∃ N st', ∀ n, N ≤ n → subDefs n sup true st1 ss = some (st', none) := by
      intro st1 hg
      refine ih hg.inv ((hg.types _).mpr (.inl hs)) hso ?_ (fun hm => hns (by simp [hm])) (fun hm => hno (by simp [hm])) ?_
      · intro x hx
        rcases hg.histIn _ _ hx with hx | hx | hx
        · exact hfr x hx
        · simp at hx; exact absurd hx.1.symm hsp
        · exact hx.1
      · intro x hx
        by_cases hxs : x = s
        · left; exact (hg.types x).mpr (.inr (by simp [hxs]))
        · rcases hall x (by simp [hx]) with hk | hk
          · left; exact (hg.types x).mpr (.inl hk)
          · right; intro ht
            rcases (hg.taken x).mp ht with ht | ht
            · exact hk ht
            · simp [hxs] at ht
    by_cases hks : s ∈ st.types
    · obtain ⟨N1, L, h1⟩ := reparent_stable h hks hs hsob hsp hso hfr
      have hr := (reparent_inv h hks hs hsob hsp hso hfr (h1 N1 (Nat.le_refl _))).2
      obtain ⟨N2, st2, h2⟩ := next _ (hr.grown h hks)
      refine ⟨max N1 N2, st2, fun n hn => ?_⟩
      simp only [subDefs, hks, if_true, h1 n (by omega), h2 n (by omega)]
    · have hfree : ¬ Taken st s := by
        rcases hall s (by simp) with hk | hk
        · exact absurd hk hks
        · exact hk
      obtain ⟨N1, st1, h1⟩ := declType_stable h hs hfree
      obtain ⟨hdec, _⟩ := declType_inv h hs (h1 N1 (Nat.le_refl _))
      obtain ⟨N2, st2, h2⟩ := next _ (hdec.grown hfree)
      refine ⟨max N1 N2, st2, fun n hn => ?_⟩
      simp only [subDefs, hks, if_false, h1 n (by omega), h2 n (by omega)]

/-! ### Entries and sections -/

/-- The parent that an entry gives to a name. -/
def TypeEntry.last : TypeEntry → String → Option String
  | .group super subs => groupLast super subs
  | .single _ => fun _ => none

theorem declaresTop_hist {st st' s} (hd : Declares1 st st' s "object") (h : TypesInv st) (hf : ¬ Taken st s) :
    ∀ x, st'.lang.HistR s x → x = "object" := by
  intro x hx
  simp only [Lang.HistR, hd.hist, List.mem_cons, Prod.mk.injEq] at hx
  rcases hx with hx | hx
  · exact hx.2
  · exfalso
    have := (h.hier.histReg _ _ hx).1
    have h2 : st.lang.sorts s = none := index_none_sorts h.names (by simpa [Taken] using hf)
    simp [h2] at this

theorem entry_grown {n st st' e} (h : TypesInv st) (hd : typeEntry n st e = some (st', none)) :
    EntryOK (· ∈ st.types) (Taken st) e ∧ Grown st st' e.names (Below [e]) e.last := by
  cases e with
  | single name =>
    simp only [typeEntry] at hd
    obtain ⟨hdec, hfree⟩ := declType_inv h h.objT hd
    refine ⟨hfree, (hdec.grownTop hfree (fun hm => hfree (h.known_taken hm))).congr ?_ ?_ ?_⟩
    · simp [TypeEntry.names]
    · simp [Below]
    · simp [TypeEntry.last]
  | group sup subs =>
    simp only [typeEntry, superDef] at hd
    split at hd
    · rename_i hk
      obtain ⟨⟨hnd, hall⟩, hg⟩ := subDefs_known h hk hd
      refine ⟨.inl ⟨hk, hnd, hall⟩, ?_⟩
      refine ⟨hg.inv, ?_, ?_, ?_, ?_, ?_, ?_, hg.par, hg.parOld, hg.parNew, hg.same⟩
      · intro a; rw [hg.types]; simp only [TypeEntry.names, List.mem_cons]
        constructor
        · tauto
        · rintro (h1 | rfl | h1)
          · exact .inl h1
          · exact .inl hk
          · exact .inr h1
      · intro a; rw [hg.taken]; simp only [TypeEntry.names, List.mem_cons]
        constructor
        · tauto
        · rintro (h1 | rfl | h1)
          · exact .inl h1
          · exact .inl (h.known_taken hk)
          · exact .inr h1
      · intro a ha hn
        simp only [TypeEntry.names, List.mem_cons] at ha
        rcases ha with rfl | ha
        · exact absurd hk hn
        · exact hall a ha
      · intro a b hab
        rcases hg.histIn a b hab with hx | ⟨hx, rfl⟩ | hx
        · exact .inl hx
        · right; left; exact ⟨subs, by simp, hx⟩
        · tauto
      · rintro a b (hab | ⟨ss, hm, ha⟩)
        · exact hg.histOut _ _ (.inl hab)
        · simp at hm; obtain ⟨rfl, rfl⟩ := hm
          exact hg.histOut _ _ (.inr ⟨ha, rfl⟩)
      · intro t p hp; exact List.mem_cons_of_mem _ (hg.lastNames t p hp)
    · rename_i hk
      split at hd
      · cases hd
      · cases hd
      · rename_i st1 h1
        obtain ⟨hdec, hfree⟩ := declType_inv h h.objT h1
        have hg1 := hdec.grownTop hfree hk
        have hsob : sup ≠ "object" := by rintro rfl; exact hk h.objT
        obtain ⟨⟨ha, hb, hc⟩, hg2⟩ := subDefs_new hg1.inv ((hg1.types _).mpr (.inr (by simp))) hsob
          (declaresTop_hist hdec h hfree) hdec.par hd
        refine ⟨.inr ⟨hfree, ha, hb, ?_⟩, (hg1.trans hg2).congr ?_ ?_ ?_⟩
        · intro s hs
          rcases hc s hs with hx | hx
          · rcases (hg1.types s).mp hx with hx | hx
            · exact .inl hx
            · simp at hx; subst hx; exact absurd hs ha
          · exact .inr (fun ht => hx ((hg1.taken s).mpr (.inl ht)))
        · simp [TypeEntry.names]
        · intro a b
          simp only [Below, List.mem_singleton, TypeEntry.group.injEq, false_or]
          constructor
          · rintro ⟨hx, rfl⟩; exact ⟨subs, ⟨rfl, rfl⟩, hx⟩
          · rintro ⟨ss, ⟨rfl, rfl⟩, hx⟩; exact ⟨hx, rfl⟩
        · intro t; simp [TypeEntry.last]

theorem entry_returns {st e} (h : TypesInv st) (hok : EntryOK (· ∈ st.types) (Taken st) e) :
    ∃ N st', ∀ n, N ≤ n → typeEntry n st e = some (st', none) := by
  cases e with
  | single name => exact declType_stable h h.objT hok
  | group sup subs =>
    rcases hok with ⟨hk, hnd, hall⟩ | ⟨hfree, ha, hb, hc⟩
    · obtain ⟨N, st', hN⟩ := subDefs_known_returns h hk hnd hall
      exact ⟨N, st', fun n hn => by simp only [typeEntry, superDef, if_pos hk, hN n hn]⟩
    · have hk : sup ∉ st.types := fun hm => hfree (h.known_taken hm)
      obtain ⟨N1, st1, h1⟩ := declType_stable h h.objT hfree
      obtain ⟨hdec, _⟩ := declType_inv h h.objT (h1 N1 (Nat.le_refl _))
      have hg1 := hdec.grownTop hfree hk
      obtain ⟨N2, st2, h2⟩ := subDefs_new_returns hg1.inv ((hg1.types _).mpr (.inr (by simp)))
        (by rintro rfl; exact hk h.objT) (declaresTop_hist hdec h hfree) ha hb (by
          intro s hs
          rcases hc s hs with hx | hx
          · exact .inl ((hg1.types s).mpr (.inl hx))
          · right; intro ht
            rcases (hg1.taken s).mp ht with ht | ht
            · exact hx ht
            · simp at ht; subst ht; exact ha hs)
      refine ⟨max N1 N2, st2, fun n hn => ?_⟩
      simp only [typeEntry, superDef, if_neg hk, h1 n (by omega), h2 n (by omega)]

/-- The parent that a section gives to a name: by the last group that lists it. -/
def sectionLast : List TypeEntry → String → Option String
  | [], _ => none
  | e :: es, t => (sectionLast es t).or (e.last t)

theorem sectionOK_congr {k1 k2 t1 t2 : String → Prop} (es : List TypeEntry) (hk : ∀ a, k1 a ↔ k2 a)
    (ht : ∀ a, t1 a ↔ t2 a) : SectionOK k1 t1 es ↔ SectionOK k2 t2 es := by
  have h1 : k1 = k2 := funext fun a => propext (hk a)
  have h2 : t1 = t2 := funext fun a => propext (ht a)
  rw [h1, h2]

theorem section_grown {n} : ∀ {es st st'}, TypesInv st → typesSection n st es = some (st', none) →
    SectionOK (· ∈ st.types) (Taken st) es ∧
    Grown st st' (es.flatMap TypeEntry.names) (Below es) (sectionLast es) := by
  intro es
  induction es with
  | nil =>
    intro st st' h hd
    simp only [typesSection] at hd; cases hd
    exact ⟨trivial, (Grown.refl h).congr (by simp) (by simp [Below]) (by simp [sectionLast])⟩
  | cons e es ih =>
    intro st st' h hd
    simp only [typesSection] at hd
    split at hd
    · cases hd
    · cases hd
    · rename_i st1 h1
      obtain ⟨hok, hg1⟩ := entry_grown h h1
      obtain ⟨hok2, hg2⟩ := ih hg1.inv hd
      refine ⟨⟨hok, (sectionOK_congr es hg1.types hg1.taken).mp hok2⟩, (hg1.trans hg2).congr ?_ ?_ ?_⟩
      · simp
      · intro a b
        simp only [Below, List.mem_cons, List.not_mem_nil, or_false]
        constructor
        · rintro (⟨ss, hx, hy⟩ | ⟨ss, hx, hy⟩)
          · exact ⟨ss, .inl hx, hy⟩
          · exact ⟨ss, .inr hx, hy⟩
        · rintro ⟨ss, hx | hx, hy⟩
          · exact .inl ⟨ss, hx, hy⟩
          · exact .inr ⟨ss, hx, hy⟩
      · intro t; rfl

theorem section_returns : ∀ {es st}, TypesInv st → SectionOK (· ∈ st.types) (Taken st) es →
    ∃ N st', ∀ n, N ≤ n → typesSection n st es = some (st', none) := by
  intro es
  induction es with
  | nil => intro st _ _; exact ⟨0, st, by simp [typesSection]⟩
  | cons e es ih =>
    intro st h hok
    obtain ⟨N1, st1, h1⟩ := entry_returns h hok.1
    obtain ⟨_, hg1⟩ := entry_grown h (h1 N1 (Nat.le_refl _))
    obtain ⟨N2, st2, h2⟩ := ih hg1.inv ((sectionOK_congr es hg1.types hg1.taken).mpr hok.2)
    refine ⟨max N1 N2, st2, fun n hn => ?_⟩
    simp only [typesSection, h1 n (by omega), h2 n (by omega)]

/-! ### The starting instance -/

theorem pinit_reach : LReach LOp.plain PInst.init.lang := by
  have h1 : ∃ L1, lstep 5 Lang.init (.attachBuiltin "Real" "object") = some (L1, none) ∧
      ∃ L2, lstep 5 L1 (.attachBuiltin "Integer" "Real") = some (L2, none) ∧
      ∃ L3, lstep 5 L2 (.attachBuiltin "Natural" "Integer") = some (L3, none) ∧
      lstep 5 L3 (.attachBuiltin "Bool" "Integer") = some (PInst.init.lang, none) := by
    refine ⟨_, rfl, _, rfl, _, rfl, rfl⟩
  obtain ⟨L1, e1, L2, e2, L3, e3, e4⟩ := h1
  have r1 := reach_of_step (ok := LOp.plain) 5 (op := .attachBuiltin "Real" "object") .init trivial (by simp) (by rintro s p ⟨⟩; rfl) e1
  have r2 := reach_of_step (ok := LOp.plain) 5 (op := .attachBuiltin "Integer" "Real") r1 trivial (by simp) (by
    rintro s p ⟨⟩; have := e1; simp only [lstep] at this; cases this; rfl) e2
  have r3 := reach_of_step (ok := LOp.plain) 5 (op := .attachBuiltin "Natural" "Integer") r2 trivial (by simp) (by
    rintro s p ⟨⟩; cases e1; cases e2; rfl) e3
  exact reach_of_step (ok := LOp.plain) 5 (op := .attachBuiltin "Bool" "Integer") r3 trivial (by simp) (by
    rintro s p ⟨⟩; cases e1; cases e2; cases e3; rfl) e4

theorem pinit_hist : PInst.init.lang.hist = [("Bool", "Integer"), ("Natural", "Integer"), ("Integer", "Real"), ("Real", "object")] := rfl

theorem pinit_taken (a : String) : Taken PInst.init a ↔ a ∈ ["object", "Real", "Integer", "Natural", "Bool"] := by
  have : PInst.init.lang.index = upd (upd (upd (upd (upd (fun _ => none) "object" (some (.sort "object"))) "Real"
    (some (.sort "Real"))) "Integer" (some (.sort "Integer"))) "Natural" (some (.sort "Natural"))) "Bool"
    (some (.sort "Bool")) := rfl
  simp only [Taken, this, upd, List.mem_cons, List.not_mem_nil, or_false]
  by_cases h1 : a = "object" <;> by_cases h2 : a = "Real" <;> by_cases h3 : a = "Integer" <;>
    by_cases h4 : a = "Natural" <;> by_cases h5 : a = "Bool" <;> simp [h1, h2, h3, h4, h5]

theorem pinit_inv : TypesInv PInst.init := by
  have hd := domInv_reach pinit_reach
  refine ⟨hd.tree.hier, nameInv_reach pinit_reach, ?_, .head _, ?_, ?_, ?_, ?_⟩
  · intro x hx; simp [Lang.HistR, pinit_hist] at hx
  · intro t ht; simp [PInst.init] at ht; subst ht; rfl
  · intro t ht; simp [PInst.init] at ht; subst ht; exact .refl _
  · intro a b hab ha; simp [PInst.init] at ha; subst ha; simp [Lang.HistR, pinit_hist] at hab
  · obtain ⟨r, hr⟩ := hd.tree.rank
    exact ⟨r, fun a b hab => hr a b (hd.tree.histPar _ _ hab)⟩

/-! ### C80 -/

/-- C80 (acceptance): the `(:types ...)` section is processed without an exception, and the call returns, exactly when
its entries are acceptable one after the other; at the start `object` is the only type, and the names of the numeric
sorts are in use. -/
theorem C80_accepts (es : List TypeEntry) :
    (∃ n st, typesSection n PInst.init es = some (st, none)) ↔
    SectionOK (· = "object") (· ∈ ["object", "Real", "Integer", "Natural", "Bool"]) es := by
  have hc := sectionOK_congr (k1 := (· ∈ PInst.init.types)) (k2 := (· = "object")) (t1 := Taken PInst.init) es
    (by simp [PInst.init]) pinit_taken
  rw [← hc]
  constructor
  · rintro ⟨n, st, h⟩; exact (section_grown pinit_inv h).1
  · intro h
    obtain ⟨N, st, hN⟩ := section_returns pinit_inv h
    exact ⟨N, st, hN N (Nat.le_refl _)⟩

/-- C80 (types): the types of the instance are `object` and the names mentioned in the section. -/
theorem C80_types {n es st} (h : typesSection n PInst.init es = some (st, none)) (t : String) :
    t ∈ st.types ↔ t = "object" ∨ ∃ e ∈ es, t ∈ e.names := by
  rw [(section_grown pinit_inv h).2.types t]
  simp [PInst.init]

theorem c80_star {n es st} (h : typesSection n PInst.init es = some (st, none)) {t s : String} (ht : t ∈ st.types) :
    Star st.lang.HistR t s ↔ s = "object" ∨ Star (Below es) t s := by
  have hg := (section_grown pinit_inv h).2
  constructor
  · intro hs
    induction hs with
    | refl => exact .inr (.refl _)
    | step a b c hab _ ih =>
      rcases ih (hg.inv.histTypes _ _ hab ht) with hc | hc
      · exact .inl hc
      · rcases hg.histIn _ _ hab with hx | hx | hx
        · exfalso
          have ha : Taken PInst.init a ∧ a ≠ "object" := by
            simp only [Lang.HistR, pinit_hist, List.mem_cons, Prod.mk.injEq, List.not_mem_nil, or_false] at hx
            rw [pinit_taken]
            rcases hx with hx | hx | hx | hx <;> simp [hx.1]
          rcases (hg.types a).mp ht with h1 | h1
          · simp [PInst.init] at h1; exact ha.2 h1
          · exact hg.fresh a h1 (by simp [PInst.init, ha.2]) ha.1
        · exact .inr (.step _ _ _ hx hc)
        · left
          obtain ⟨rfl, _⟩ := hx
          cases hc with
          | refl => rfl
          | step _ d _ hd _ => exact absurd (hg.histOut _ _ (.inr hd)) (hg.inv.objTop _)
  · rintro (rfl | hs)
    · exact hg.inv.top t ht
    · exact hs.mono (fun a b hab => hg.histOut _ _ (.inr hab))

/-- C80 (hierarchy): after a section that was accepted, `is_subtype(t, s)` returns for every type `t` of the instance
and every sort, and the answer is the reflexive-transitive closure of the pairs stated in the section, with `object`
on top. -/
theorem C80_hierarchy {n es st} (h : typesSection n PInst.init es = some (st, none)) {t : String} (ht : t ∈ st.types)
    (s : String) : ∃ m b L', isSubtype m st.lang t s = some (b, L') ∧ (b = true ↔ s = "object" ∨ Star (Below es) t s) := by
  have hg := (section_grown pinit_inv h).2
  obtain ⟨r, hr⟩ := hg.inv.anc_rank
  obtain ⟨N, hN⟩ := anc_bounded hg.inv.hier
  have hret : ∃ m x, isSubtype m st.lang t s = some x := by
    refine ⟨((st.lang.anc t).map (fun o => (N + 1) ^ r o)).sum, ?_⟩
    obtain ⟨b, hb⟩ := connLoop_terminates r N hr hN s _ (st.lang.anc t) (Nat.le_refl _)
    unfold isSubtype
    split
    · exact ⟨_, rfl⟩
    · split
      · exact ⟨_, rfl⟩
      · split
        · exact ⟨_, rfl⟩
        · rw [hb]
          cases b
          · exact ⟨_, rfl⟩
          · exact ⟨_, rfl⟩
  obtain ⟨m, ⟨b, L'⟩, hx⟩ := hret
  exact ⟨m, b, L', hx, (isSubtype_spec hg.inv.hier hx).trans (c80_star h ht)⟩

theorem sectionLast_none {es : List TypeEntry} {t : String} (h : ∀ b, ¬ Below es t b) : sectionLast es t = none := by
  induction es with
  | nil => rfl
  | cons e es ih =>
    simp only [sectionLast, Option.or_eq_none_iff]
    refine ⟨ih (fun b ⟨ss, hm, ht⟩ => h b ⟨ss, .tail _ hm, ht⟩), ?_⟩
    cases e with
    | single a => rfl
    | group sup subs =>
      simp only [TypeEntry.last, groupLast]
      rw [if_neg]
      intro ht; exact h sup ⟨subs, .head _, ht⟩

theorem sectionLast_append (l1 l2 : List TypeEntry) (t : String) :
    sectionLast (l1 ++ l2) t = (sectionLast l2 t).or (sectionLast l1 t) := by
  induction l1 with
  | nil => simp [sectionLast]
  | cons e l1 ih => simp [sectionLast, ih, Option.or_assoc]

/-- C80 (parent): the direct parent of a type is the supertype of the last group that lists it. -/
theorem C80_parent {n pre post st} {sup : String} {subs : List String}
    (h : typesSection n PInst.init (pre ++ .group sup subs :: post) = some (st, none)) {t : String} (ht : t ∈ subs)
    (hlast : ∀ b, ¬ Below post t b) : st.lang.ParentOf t sup := by
  apply (section_grown pinit_inv h).2.par
  simp [sectionLast_append, sectionLast, sectionLast_none hlast, TypeEntry.last, groupLast, ht]

/-- C80 (parent): a type that no group lists is a child of `object`. -/
theorem C80_parent_top {n es st} (h : typesSection n PInst.init es = some (st, none)) {t : String} (ht : t ∈ st.types)
    (hto : t ≠ "object") (hno : ∀ b, ¬ Below es t b) : st.lang.ParentOf t "object" :=
  (section_grown pinit_inv h).2.parNew t ht (sectionLast_none hno) (by simp [PInst.init, hto])

/-- C80 (wrong exception): a group with a known supertype that lists a known type, after new distinct names, ends with
a TypeError; the exception for multiple inheritance is never raised. -/
theorem C80_wrong_exception {n st} {sup s : String} (hsup : sup ∈ st.types) (hs : s ∈ st.types) (rest : List String) :
    superDef n st sup (s :: rest) = some (st, some .typeError) := by
  simp [superDef, hsup, subDefs, hs]

/-! ### Constants and objects -/

/-- The names that a section of constants declares. -/
def declaredNames (es : List TypeEntry) : List String :=
  es.flatMap (fun e => match e with | .group _ cs => cs | .single _ => [])

/-- Effect of declaring constants: pairs (constant, type). -/
structure Filled (st st' : PInst) (cs : List String) (P : String → String → Prop) : Prop where
  inv : TypesInv st'
  types : st'.types = st.types
  hist : st'.lang.hist = st.lang.hist
  taken : ∀ a, Taken st' a ↔ Taken st a ∨ a ∈ cs
  dom : ∀ c x, c ∈ st'.lang.dom x ↔ c ∈ st.lang.dom x ∨ ∃ t, P c t ∧ Star st.lang.HistR t x

theorem niReach_types {st : PInst} (h : TypesInv st) {t x} (ht : t ∈ st.types) :
    (¬ st.lang.isInterval x ∧ NIReach st.lang t x) ↔ Star st.lang.HistR t x := by
  have hni : ∀ y ∈ st.types, ¬ st.lang.isInterval y := by
    rintro y hy ⟨i, hi, hi2⟩
    rw [h.typesReg y hy] at hi; cases hi; cases hi2
  have hst : ∀ a b, Star st.lang.HistR a b → a ∈ st.types → b ∈ st.types := by
    intro a b hab
    induction hab with
    | refl => exact id
    | step a b c h1 _ ih => exact fun ha => ih (h.histTypes _ _ h1 ha)
  have hanc : ∀ a b, b ∈ st.lang.anc a → a ∈ st.types → b ∈ st.types :=
    fun a b hb ha => hst a b (h.hier.ancHist a b hb).star ha
  constructor
  · rintro ⟨_, hr⟩
    rw [← ancR_star_hist h.hier]
    clear ht
    induction hr with
    | refl => exact .refl _
    | step a b c _ hb _ ih => exact .step _ _ _ hb (ih (by assumption))
  · intro hs
    refine ⟨hni x (hst _ _ hs ht), ?_⟩
    rw [← ancR_star_hist h.hier] at hs
    induction hs with
    | refl => exact .refl _
    | step a b c hab _ ih => exact .step _ _ _ (hni _ ht) hab (ih (hanc _ _ hab ht))

theorem declConstant_filled {st : PInst} (h : TypesInv st) {t c n L} (ht : t ∈ st.types)
    (hd : declConstant n st.lang c t true = some (L, none)) :
    ¬ Taken st c ∧ Filled st { st with lang := L } [c] (fun a b => a = c ∧ b = t) := by
  have hni : NameInv L := nameInv_step (op := .constant c t true) h.names hd
  have hh : HierInv L := hier_step (op := .constant c t true) h.hier h.names trivial (by simp) (by simp) hd
  unfold declConstant at hd
  rw [h.typesReg t ht] at hd
  simp only [Bool.false_eq_true, if_false] at hd
  split at hd
  · cases hd
  · rename_i hck
    have hfree : st.lang.index c = none := (checkName_none hck).2
    split at hd
    · cases hd
    · rename_i dom' hext
      cases hd
      refine ⟨by simp [Taken, hfree], ⟨hh, hni, h.objTop, h.objT, h.typesReg, h.top, h.histTypes, h.rank⟩, rfl, rfl, ?_, ?_⟩
      · intro a
        simp only [Taken, upd]
        by_cases hac : a = c <;> simp [hac]
      · intro d x
        rw [extend_spec st.lang n _ _ _ _ hext x d, niReach_types h ht]
        constructor
        · rintro (h1 | ⟨rfl, h2⟩)
          · exact .inl h1
          · exact .inr ⟨t, ⟨rfl, rfl⟩, h2⟩
        · rintro (h1 | ⟨_, ⟨rfl, rfl⟩, h2⟩)
          · exact .inl h1
          · exact .inr ⟨rfl, h2⟩

theorem declConstant_stable {st : PInst} (h : TypesInv st) {t c} (ht : t ∈ st.types) (hc : ¬ Taken st c) :
    ∃ N L, ∀ n, N ≤ n → declConstant n st.lang c t true = some (L, none) := by
  have hfree : st.lang.index c = none := by simpa [Taken] using hc
  have hcon : st.lang.consts c = none := by
    cases hx : st.lang.consts c with
    | none => rfl
    | some q => have := (h.names.const c q).mp hx; rw [hfree] at this; cases this
  obtain ⟨r, hr⟩ := h.anc_rank
  obtain ⟨dom', hd⟩ := extend_terminates r hr (r t + 1) st.lang.dom t c (Nat.lt_succ_self _)
  have h1 : ∃ L, declConstant (r t + 1) st.lang c t true = some (L, none) := by
    unfold declConstant
    rw [h.typesReg t ht]
    simp only [Bool.false_eq_true, if_false, checkName, hcon, hfree, Option.isSome_none, hd]
    exact ⟨_, rfl⟩
  obtain ⟨L, hL⟩ := h1
  exact ⟨r t + 1, L, fun n hn => lstep_mono_le (op := .constant c t true) hL hn⟩

theorem Filled.refl {st} (h : TypesInv st) : Filled st st [] (fun _ _ => False) :=
  ⟨h, rfl, rfl, by simp, by simp⟩

theorem Filled.trans {st st1 st2 c1 c2 P1 P2} (h1 : Filled st st1 c1 P1) (h2 : Filled st1 st2 c2 P2) :
    Filled st st2 (c1 ++ c2) (fun a b => P1 a b ∨ P2 a b) := by
  have hH : st1.lang.HistR = st.lang.HistR := by funext a b; simp only [Lang.HistR, h1.hist]
  refine ⟨h2.inv, h2.types.trans h1.types, h2.hist.trans h1.hist, ?_, ?_⟩
  · intro a; rw [h2.taken, h1.taken, List.mem_append, or_assoc]
  · intro c x
    rw [h2.dom, h1.dom, hH, or_assoc]
    apply or_congr_right
    constructor
    · rintro (⟨t, hp, hs⟩ | ⟨t, hp, hs⟩)
      · exact ⟨t, .inl hp, hs⟩
      · exact ⟨t, .inr hp, hs⟩
    · rintro ⟨t, hp | hp, hs⟩
      · exact .inl ⟨t, hp, hs⟩
      · exact .inr ⟨t, hp, hs⟩

theorem Filled.congr {st st' c1 P1 P2} (h : Filled st st' c1 P1) (hP : ∀ a b, P1 a b ↔ P2 a b) : Filled st st' c1 P2 := by
  have hP' : P1 = P2 := by funext a b; exact propext (hP a b)
  subst hP'; exact h

theorem constDefs_filled {n t} : ∀ {cs st st'}, TypesInv st → t ∈ st.types → constDefs n t st cs = some (st', none) →
    (cs.Nodup ∧ ∀ c ∈ cs, ¬ Taken st c) ∧ Filled st st' cs (fun a b => a ∈ cs ∧ b = t) := by
  intro cs
  induction cs with
  | nil => intro st st' h _ hd; simp only [constDefs] at hd; cases hd; exact ⟨by simp, (Filled.refl h).congr (by simp)⟩
  | cons c cs ih =>
    intro st st' h ht hd
    simp only [constDefs] at hd
    split at hd
    · cases hd
    · cases hd
    · rename_i L hL
      obtain ⟨hfree, hf⟩ := declConstant_filled h ht hL
      obtain ⟨⟨hnd, hall⟩, hf2⟩ := ih hf.inv ht hd
      refine ⟨⟨?_, ?_⟩, (hf.trans hf2).congr ?_⟩
      · rw [List.nodup_cons]
        exact ⟨fun hm => hall c hm ((hf.taken c).mpr (.inr (by simp))), hnd⟩
      · intro x hx
        rcases List.mem_cons.mp hx with rfl | hx
        · exact hfree
        · exact fun hk => hall x hx ((hf.taken x).mpr (.inl hk))
      · intro a b; simp only [List.mem_cons]; tauto

theorem constDefs_returns {t} : ∀ {cs st}, TypesInv st → t ∈ st.types → cs.Nodup → (∀ c ∈ cs, ¬ Taken st c) →
    ∃ N st', ∀ n, N ≤ n → constDefs n t st cs = some (st', none) := by
  intro cs
  induction cs with
  | nil => intro st h _ _ _; exact ⟨0, st, by simp [constDefs]⟩
  | cons c cs ih =>
    intro st h ht hnd hall
    obtain ⟨N1, L, h1⟩ := declConstant_stable h ht (hall c (by simp))
    obtain ⟨_, hf⟩ := declConstant_filled h ht (h1 N1 (Nat.le_refl _))
    rw [List.nodup_cons] at hnd
    obtain ⟨N2, st2, h2⟩ := ih (st := { st with lang := L }) hf.inv ht hnd.2 (by
      intro x hx hk
      rcases (hf.taken x).mp hk with hk | hk
      · exact hall x (by simp [hx]) hk
      · simp at hk; subst hk; exact hnd.1 hx)
    refine ⟨max N1 N2, st2, fun n hn => ?_⟩
    simp only [constDefs, h1 n (by omega), h2 n (by omega)]

/-- Every entry names a known type. -/
def AllTyped (known : String → Prop) (es : List TypeEntry) : Prop := ∀ e ∈ es, ∃ t cs, e = .group t cs ∧ known t

theorem consts_filled {n} : ∀ {es st st'}, TypesInv st → constsSection n st es = some (st', none) →
    (AllTyped (· ∈ st.types) es ∧ (declaredNames es).Nodup ∧ ∀ c ∈ declaredNames es, ¬ Taken st c) ∧
    Filled st st' (declaredNames es) (Below es) := by
  intro es
  induction es with
  | nil =>
    intro st st' h hd; simp only [constsSection] at hd; cases hd
    exact ⟨⟨by simp [AllTyped], by simp [declaredNames], by simp [declaredNames]⟩, (Filled.refl h).congr (by simp [Below])⟩
  | cons e es ih =>
    intro st st' h hd
    simp only [constsSection] at hd
    split at hd
    · cases hd
    · cases hd
    · rename_i st1 h1
      cases e with
      | single a => simp only [constEntry] at h1; cases h1
      | group t cs =>
        simp only [constEntry] at h1
        split at h1
        · rename_i ht
          obtain ⟨⟨hnd, hall⟩, hf⟩ := constDefs_filled h ht h1
          obtain ⟨⟨hty, hnd2, hall2⟩, hf2⟩ := ih hf.inv hd
          have hdn : declaredNames (.group t cs :: es) = cs ++ declaredNames es := by simp [declaredNames]
          rw [hdn]
          refine ⟨⟨?_, ?_, ?_⟩, (hf.trans hf2).congr ?_⟩
          · intro e he
            rcases List.mem_cons.mp he with rfl | he
            · exact ⟨t, cs, rfl, ht⟩
            · obtain ⟨t', cs', rfl, h3⟩ := hty e he
              exact ⟨t', cs', rfl, by rw [hf.types] at h3; exact h3⟩
          · rw [List.nodup_append]
            refine ⟨hnd, hnd2, ?_⟩
            intro x hx y hy hxy
            subst hxy
            exact hall2 x hy ((hf.taken x).mpr (.inr hx))
          · intro c hc
            rcases List.mem_append.mp hc with hc | hc
            · exact hall c hc
            · exact fun hk => hall2 c hc ((hf.taken c).mpr (.inl hk))
          · intro a b
            simp only [Below, List.mem_cons]
            constructor
            · rintro (⟨h3, rfl⟩ | ⟨ss, h3, h4⟩)
              · exact ⟨cs, .inl rfl, h3⟩
              · exact ⟨ss, .inr h3, h4⟩
            · rintro ⟨ss, h3 | h3, h4⟩
              · cases h3; exact .inl ⟨h4, rfl⟩
              · exact .inr ⟨ss, h3, h4⟩
        · cases h1

theorem consts_returns : ∀ {es st}, TypesInv st → AllTyped (· ∈ st.types) es → (declaredNames es).Nodup →
    (∀ c ∈ declaredNames es, ¬ Taken st c) → ∃ N st', ∀ n, N ≤ n → constsSection n st es = some (st', none) := by
  intro es
  induction es with
  | nil => intro st _ _ _ _; exact ⟨0, st, by simp [constsSection]⟩
  | cons e es ih =>
    intro st h hty hnd hall
    obtain ⟨t, cs, rfl, ht⟩ := hty e (.head _)
    have hdn : declaredNames (.group t cs :: es) = cs ++ declaredNames es := by simp [declaredNames]
    rw [hdn, List.nodup_append] at hnd
    rw [hdn] at hall
    obtain ⟨N1, st1, h1⟩ := constDefs_returns h ht hnd.1 (fun c hc => hall c (List.mem_append_left _ hc))
    obtain ⟨_, hf⟩ := constDefs_filled h ht (h1 N1 (Nat.le_refl _))
    obtain ⟨N2, st2, h2⟩ := ih hf.inv (by
        intro e he
        obtain ⟨t', cs', rfl, h3⟩ := hty e (.tail _ he)
        exact ⟨t', cs', rfl, by rw [hf.types]; exact h3⟩) hnd.2.1 (by
        intro c hc hk
        rcases (hf.taken c).mp hk with hk | hk
        · exact hall c (List.mem_append_right _ hc) hk
        · exact hnd.2.2 c hk c hc rfl)
    refine ⟨max N1 N2, st2, fun n hn => ?_⟩
    simp only [constsSection, constEntry, if_pos ht, h1 n (by omega), h2 n (by omega)]

theorem pinit_dom (x : String) : PInst.init.lang.dom x = [] := rfl

/-- C80 (objects, acceptance): after an accepted `(:types ...)` section, a section of constants or objects is accepted
exactly when every group names a type of the instance, no entry is without a type, and the declared names are distinct
and different from the names of types and numeric sorts. -/
theorem C80_objects_accepts {n ts st} (h : typesSection n PInst.init ts = some (st, none)) (es : List TypeEntry) :
    (∃ m st', constsSection m st es = some (st', none)) ↔
    (AllTyped (fun t => t = "object" ∨ ∃ e ∈ ts, t ∈ e.names) es ∧ (declaredNames es).Nodup ∧
      ∀ c ∈ declaredNames es, c ∉ ["object", "Real", "Integer", "Natural", "Bool"] ∧ ∀ e ∈ ts, c ∉ e.names) := by
  have hg := (section_grown pinit_inv h).2
  have hk : (fun t => t = "object" ∨ ∃ e ∈ ts, t ∈ e.names) = (· ∈ st.types) := by
    funext t; exact propext (C80_types h t).symm
  have ht : ∀ c, (c ∉ ["object", "Real", "Integer", "Natural", "Bool"] ∧ ∀ e ∈ ts, c ∉ e.names) ↔ ¬ Taken st c := by
    intro c
    rw [hg.taken, pinit_taken, List.mem_flatMap]
    simp only [not_or, not_exists, not_and]
  rw [hk]
  simp only [ht]
  constructor
  · rintro ⟨m, st', hm⟩; exact (consts_filled hg.inv hm).1
  · rintro ⟨h1, h2, h3⟩
    obtain ⟨N, st', hN⟩ := consts_returns hg.inv h1 h2 h3
    exact ⟨N, st', hN N (Nat.le_refl _)⟩

/-- C80 (objects, domains): after accepted sections of types and of objects, the domain of a sort contains exactly the
objects declared with a type below it. -/
theorem C80_objects_domains {n m ts es st st'} (h : typesSection n PInst.init ts = some (st, none))
    (h' : constsSection m st es = some (st', none)) (c x : String) :
    c ∈ st'.lang.dom x ↔ ∃ t, Below es c t ∧ (x = "object" ∨ Star (Below ts) t x) := by
  have hg := (section_grown pinit_inv h).2
  obtain ⟨⟨hty, _, _⟩, hf⟩ := consts_filled hg.inv h'
  rw [hf.dom, hg.same.1, pinit_dom]
  simp only [List.not_mem_nil, false_or]
  apply exists_congr
  intro t
  apply and_congr_right
  rintro ⟨cs, hm, _⟩
  obtain ⟨t', cs', he, ht'⟩ := hty _ hm
  cases he
  exact c80_star h ht'

/-! ### What goes wrong -/

/-- A section in which some type has two different supertypes. -/
def MultipleInheritance (es : List TypeEntry) : Prop := ∃ a b c, Below es a b ∧ Below es a c ∧ b ≠ c

/-- The intended property: a type "defined via multiple inheritance, which is not supported" is rejected. -/
def C80_single_full : Prop := ∀ n es st, typesSection n PInst.init es = some (st, none) → ¬ MultipleInheritance es

/-- C80 (multiple inheritance) is false: `a - b`, `a - c` is accepted, and `a` is then a subtype of both. -/
theorem C80_single_refuted : ¬ C80_single_full := by
  intro h
  have hok : ∃ n st, typesSection n PInst.init [.group "b" ["a"], .group "c" ["a"]] = some (st, none) := by
    rw [C80_accepts]; simp [SectionOK, EntryOK, TypeEntry.names]
  obtain ⟨n, st, hn⟩ := hok
  exact h n _ st hn ⟨"a", "b", "c", ⟨["a"], by simp, by simp⟩, ⟨["a"], by simp, by simp⟩, by decide⟩

/-- The intended property: the order of the entries does not matter. -/
def C80_order_full : Prop := ∀ es es' : List TypeEntry, es.Perm es' →
  (∃ n st, typesSection n PInst.init es = some (st, none)) → ∃ n st, typesSection n PInst.init es' = some (st, none)

/-- C80 (order) is false: `x - a`, `b - a`, `c - b` is accepted, while `x - a`, `c - b`, `b - a` is rejected. -/
theorem C80_order_refuted : ¬ C80_order_full := by
  intro h
  have h1 : ∃ n st, typesSection n PInst.init [.group "a" ["x"], .group "a" ["b"], .group "b" ["c"]] = some (st, none) := by
    rw [C80_accepts]; simp [SectionOK, EntryOK, TypeEntry.names]
  have h2 := h _ [.group "a" ["x"], .group "b" ["c"], .group "a" ["b"]] (.cons _ (.swap _ _ _)) h1
  rw [C80_accepts] at h2
  simp [SectionOK, EntryOK, TypeEntry.names] at h2

theorem declType_mono_le {n m st s p x} (h : declType n st s p = some x) (hm : n ≤ m) : declType m st s p = some x := by
  unfold declType at h ⊢
  cases hd : declSort n st.lang s p with
  | none => rw [hd] at h; cases h
  | some y =>
    have : declSort m st.lang s p = some y := lstep_mono_le (op := .sort s p) hd hm
    rw [this]; rw [hd] at h; exact h

/-- C80 (non-termination): a new type that is listed below itself, or above `object`, makes the reader loop for ever:
no number of steps is enough. -/
theorem C80_hang (sup : String) (hnew : sup ∉ ["object", "Real", "Integer", "Natural", "Bool"]) (s : String)
    (hs : s = sup ∨ s = "object") (rest : List String) (es : List TypeEntry) (n : Nat) :
    typesSection n PInst.init (.group sup (s :: rest) :: es) = none := by
  have hk : sup ∉ PInst.init.types := by
    simp only [PInst.init, List.mem_singleton]; rintro rfl; simp at hnew
  have hfree : ¬ Taken PInst.init sup := by rw [pinit_taken]; exact hnew
  obtain ⟨N, st1, h1⟩ := declType_stable pinit_inv pinit_inv.objT hfree
  obtain ⟨hdec, _⟩ := declType_inv pinit_inv pinit_inv.objT (h1 N (Nat.le_refl _))
  have hmem : s ∈ st1.types := by
    rw [hdec.types]
    rcases hs with rfl | rfl
    · simp
    · exact List.mem_cons_of_mem _ pinit_inv.objT
  have hcyc : Star st1.lang.ParentOf sup s := by
    rcases hs with rfl | rfl
    · exact .refl _
    · exact .single hdec.par
  simp only [typesSection, typeEntry, superDef, if_neg hk]
  cases hd : declType n PInst.init sup "object" with
  | none => rfl
  | some x =>
    have h2 := declType_mono_le hd (Nat.le_max_left n N)
    rw [h1 _ (Nat.le_max_right n N)] at h2
    cases h2
    simp only [subDefs, if_pos hmem, setParent_cycle hcyc]
    rfl

/-- The intended property: an object of type `object` can always be declared. -/
def C80_object_full : Prop := ∀ n ts st c, typesSection n PInst.init ts = some (st, none) →
  c ∉ ["object", "Real", "Integer", "Natural", "Bool"] → (∀ e ∈ ts, c ∉ e.names) →
  ∃ m st', constsSection m st [.group (primitiveType "object") [c]] = some (st', none)

/-- C80 (the type `object`) is false: the word `object` denotes a type `Object` which does not exist unless the types
section mentions it. -/
theorem C80_object_refuted : ¬ C80_object_full := by
  intro h
  obtain ⟨m, st', hm⟩ := h 0 [] PInst.init "c" rfl (by decide) (by simp)
  simp only [constsSection, constEntry, primitiveType] at hm
  rw [if_neg (by decide)] at hm
  cases hm

/-- A section as in the benchmark domains. -/
def demoTypes : List TypeEntry := [.group "Object" ["locatable", "place"], .group "vehicle" ["locatable"],
  .single "color", .group "place" ["depot"]]

example : ∃ n st, typesSection n PInst.init demoTypes = some (st, none) := by
  rw [C80_accepts]; simp [SectionOK, EntryOK, TypeEntry.names, demoTypes]
/-- The hypotheses of the other theorems: types, then objects. -/
example : ∃ n st m st', typesSection n PInst.init demoTypes = some (st, none) ∧
    constsSection m st [.group "depot" ["d1", "d2"], .group "place" ["p"]] = some (st', none) ∧
    "d1" ∈ st'.lang.dom "Object" ∧ "d1" ∉ st'.lang.dom "vehicle" := by
  have h : ∃ n st, typesSection n PInst.init demoTypes = some (st, none) := by
    rw [C80_accepts]; simp [SectionOK, EntryOK, TypeEntry.names, demoTypes]
  obtain ⟨n, st, h⟩ := h
  obtain ⟨m, st', h'⟩ := (C80_objects_accepts h [.group "depot" ["d1", "d2"], .group "place" ["p"]]).mpr (by
    refine ⟨?_, by decide, by decide⟩
    intro e he
    simp at he
    rcases he with rfl | rfl
    · exact ⟨_, _, rfl, .inr ⟨.group "place" ["depot"], by decide, by decide⟩⟩
    · exact ⟨_, _, rfl, .inr ⟨.group "place" ["depot"], by decide, by decide⟩⟩)
  refine ⟨n, st, m, st', h, h', ?_, ?_⟩
  · rw [C80_objects_domains h h']
    refine ⟨"depot", ⟨["d1", "d2"], by simp, by simp⟩, .inr ?_⟩
    exact .step _ "place" _ ⟨["depot"], by simp [demoTypes], by simp⟩
      (.single ⟨["locatable", "place"], by simp [demoTypes], by simp⟩)
  · rw [C80_objects_domains h h']
    rintro ⟨t, ⟨cs, hm, hc⟩, hx⟩
    simp at hm
    rcases hm with ⟨rfl, rfl⟩ | ⟨rfl, rfl⟩
    · rcases hx with hx | hx
      · exact absurd hx (by decide)
      · have key : ∀ a b, Star (Below demoTypes) a b → a ∈ ["depot", "place", "Object"] → b ∈ ["depot", "place", "Object"] := by
          intro a b hab
          induction hab with
          | refl => exact id
          | step a b c h1 _ ih =>
            intro ha; apply ih
            obtain ⟨ss, hm, hss⟩ := h1
            simp [demoTypes] at hm ha
            rcases hm with ⟨rfl, rfl⟩ | ⟨rfl, rfl⟩ | ⟨rfl, rfl⟩
            · simp
            · simp at hss; subst hss; simp at ha
            · simp
        exact absurd (key _ _ hx (by simp)) (by decide)
    · simp at hc

end Tarski

import Verif.TheoriesLemmas
/-! C73 (theories and their operators), C74 (loading theories). -/
namespace Tarski

/-! ### Specification -/

/-- The theory a builtin symbol belongs to. -/
def BSym.owner : BSym → Option Theory
  | .pred .eq | .pred .ne => some .equality
  | .pred _ => some .arithmetic
  | .fn .add | .fn .sub | .fn .mul | .fn .matmul | .fn .div | .fn .pow | .fn .mod | .fn .sqrt => some .arithmetic
  | .fn .kron | .fn .dirac | .fn .bernoulli | .fn .discrete | .fn .poisson => none
  | .fn .normal | .fn .gamma => some .random
  | .fn _ => some .special

/-- Number of arguments of a builtin symbol. -/
def BSym.arity : BSym → Nat
  | .fn .abs | .fn .sin | .fn .cos | .fn .tan | .fn .atan | .fn .asin | .fn .exp | .fn .log | .fn .erf | .fn .erfc
  | .fn .sgn | .fn .sqrt => 1
  | _ => 2

/-- The sort that the arguments of a builtin symbol must have: anything for `=` and `!=`, else numbers. -/
def BSym.argSort : BSym → String
  | .pred .eq | .pred .ne => "object"
  | _ => "Real"

/-- Sorts of the arguments and, for a function, of the value. -/
def BSym.signature (s : BSym) : List String :=
  List.replicate s.arity s.argSort ++ (match s with | .pred _ => [] | .fn _ => ["Real"])

/-- The expression that a symbol applied to arguments stands for. -/
def BSym.build {α} : BSym → List α → Built α
  | .pred c, l => .atom c l
  | .fn f, l => .term f l

/-- A theory of the language defines the symbol. -/
def Loaded (L : TLang) (s : BSym) : Prop := ∃ t ∈ L.theories, s.owner = some t

/-- Nothing in the language has this name. -/
def Unused (L : TLang) (x : String) : Prop := ∀ o, ¬ Declared L.base x o

/-- The names that a theory needs are available: the numeric sorts are there or can be made, and the names it
declares are not in use. -/
def Loadable (L : TLang) (t : Theory) : Prop :=
  (t = .boolean → Unused L "Boolean" ∧ Unused L "True" ∧ Unused L "False") ∧
  (t = .arithmetic → Unused L "ite") ∧
  (t = .arithmetic ∨ t = .special ∨ t = .random →
    ((L.base.sorts "Integer").isSome ∧ (L.base.sorts "Real").isSome) ∨
    (Unused L "Real" ∧ Unused L "Integer" ∧ Unused L "Natural"))

/-- One of the theories about numbers. -/
def Numeric (T : List Theory) : Prop := .arithmetic ∈ T ∨ .special ∈ T ∨ .random ∈ T

/-- The names in a language that has just been created with the theories `T`. -/
inductive Vocab (T : List Theory) : String → LObj → Prop where
  | object : Vocab T "object" (.sort "object")
  | number x : Numeric T → x ∈ ["Real", "Integer", "Natural"] → Vocab T x (.sort x)
  | bool : .boolean ∈ T → Vocab T "Boolean" (.sort "Boolean")
  | truth x : .boolean ∈ T → x ∈ ["True", "False"] → Vocab T x (.const x "Boolean")
  | ite : .arithmetic ∈ T → Vocab T "ite" (.func "ite" ["object", "object", "object"])

/-- The direct supersorts in such a language. -/
inductive FreshParent (T : List Theory) : String → String → Prop where
  | real : Numeric T → FreshParent T "Real" "object"
  | int : Numeric T → FreshParent T "Integer" "Real"
  | nat : Numeric T → FreshParent T "Natural" "Integer"
  | bool : .boolean ∈ T → FreshParent T "Boolean" "object"

/-- The two languages cannot be told apart by names, sorts, domains, builtin symbols, operators or theories. -/
structure SameLanguage (L L' : TLang) : Prop where
  names : ∀ x o, Declared L.base x o ↔ Declared L'.base x o
  sorts : L.base.sorts = L'.base.sorts
  parents : ∀ s p, L.base.ParentOf s p ↔ L'.base.ParentOf s p
  domains : ∀ s c, c ∈ L.base.dom s ↔ c ∈ L'.base.dom s
  symbols : L.bsyms = L'.bsyms
  operators : L.ops = L'.ops
  theories : ∀ t, t ∈ L.theories ↔ t ∈ L'.theories

/-- Calls a user makes: declarations, and loading of theories. -/
def UserOp (L : TLang) : TOp → Prop
  | .decl op => op.plain ∧ ∀ s p, op = .attachBuiltin s p → (L.base.sorts p).isSome
  | _ => True

/-- Languages after any history of such calls. With `strict`, no call that loads a theory has failed half-way. -/
inductive TReach (strict : Bool) : TLang → Prop where
  | init : TReach strict TLang.init
  | step L op n L' e : TReach strict L → UserOp L op → tstep n L op = some (L', e) →
      (strict = true → (∃ o, op = .decl o) ∨ e = none ∨ L' = L) → TReach strict L'

/-! ### Lemmas -/

/-- Everything in the language belongs to a loaded theory, and conversely. -/
structure CleanInv (L : TLang) : Prop where
  reach : LReach LOp.plain L.base
  nodup : L.theories.Nodup
  syms : ∀ s a, L.bsyms s = some a ↔ Loaded L s ∧ a = s.signature
  bin : ∀ s h, L.ops (.bin s) = some h ↔ Loaded L s ∧ s.arity = 2 ∧ h = ⟨s, match s with | .pred _ => .atom | .fn _ => .term⟩
  un : ∀ s h, L.ops (.un s) = some h ↔ Loaded L s ∧ s.arity = 1 ∧ h = ⟨s, match s with | .pred _ => .atom | .fn _ => .term⟩

theorem cleanInv_init : CleanInv TLang.init :=
  ⟨.init, .nil, by simp [TLang.init, Loaded], by simp [TLang.init, Loaded], by simp [TLang.init, Loaded]⟩

theorem regSyms_eq (t : Theory) (f : BSym → Option (List String)) (s : BSym) :
    regSyms f (loaderBlocks t) s = if s.owner = some t then some s.signature else f s := by
  rcases s with c | g
  · cases t <;> cases c <;> rfl
  · cases t <;> cases g <;> rfl

theorem regOps_bin (t : Theory) (f : OpKey → Option Handler) (s : BSym) :
    regOps f (loaderBlocks t) (.bin s) = if s.owner = some t ∧ s.arity = 2 then
      some ⟨s, match s with | .pred _ => .atom | .fn _ => .term⟩ else f (.bin s) := by
  rcases s with c | g
  · cases t <;> cases c <;> rfl
  · cases t <;> cases g <;> rfl

theorem regOps_un (t : Theory) (f : OpKey → Option Handler) (s : BSym) :
    regOps f (loaderBlocks t) (.un s) = if s.owner = some t ∧ s.arity = 1 then
      some ⟨s, match s with | .pred _ => .atom | .fn _ => .term⟩ else f (.un s) := by
  rcases s with c | g
  · cases t <;> cases c <;> rfl
  · cases t <;> cases g <;> rfl

theorem blocks_owner (t : Theory) : ∀ b ∈ loaderBlocks t, b.sym.owner = some t := by
  cases t <;> decide

theorem blocks_nodup (t : Theory) : ((loaderBlocks t).map (·.sym)).Nodup := by
  cases t <;> decide

theorem blocks_sorts (t : Theory) : ∀ b ∈ loaderBlocks t, ∀ x ∈ b.sorts, x = if t.needsArithmeticSorts then "Real" else "object" := by
  cases t <;> decide

theorem blocks_real (t : Theory) (h : t.needsArithmeticSorts = true) : loaderBlocks t ≠ [] ∧ ∀ b ∈ loaderBlocks t, "Real" ∈ b.sorts := by
  cases t <;> first | (cases h; done) | decide

theorem unused_iff {L : TLang} (hr : LReach LOp.plain L.base) (x : String) : Unused L x ↔ L.base.index x = none := by
  have hn := nameInv_reach hr
  unfold Unused
  constructor
  · intro h
    cases hi : L.base.index x with
    | none => rfl
    | some o => exact absurd ((declared_iff_index hn x o).mpr hi) (h o)
  · intro h o ho
    rw [(declared_iff_index hn x o).mp ho] at h; cases h

theorem needs_iff (t : Theory) : t.needsArithmeticSorts = true ↔ t = .arithmetic ∨ t = .special ∨ t = .random := by
  cases t <;> simp [Theory.needsArithmeticSorts]

/-- `Loadable` in terms of the names that are declared. -/
theorem loadable_iff {L : TLang} (hr : LReach LOp.plain L.base) (t : Theory) : Loadable L t ↔
    (∀ x o, (x, o) ∈ numNew L.base t ++ ownNew t → L.base.index x = none) ∧
    (t.needsArithmeticSorts = true → (L.base.sorts "Integer").isSome → (L.base.sorts "Real").isSome) := by
  have hn := nameInv_reach hr
  unfold Loadable
  simp only [unused_iff hr, ← needs_iff]
  have hint : (L.base.sorts "Integer").isSome → L.base.index "Integer" ≠ none := by
    intro h; rw [(hn.sort "Integer").mp h]; simp
  have hent : ∀ l : List (String × LObj), (∀ x o, (x, o) ∈ l → L.base.index x = none) ↔ ∀ y ∈ l, L.base.index y.1 = none :=
    fun l => ⟨fun h y hy => h y.1 y.2 hy, fun h x o hx => h _ hx⟩
  rw [hent]
  by_cases hs : (L.base.sorts "Integer").isSome
  · have h1 : (L.base.sorts "Integer").isNone = false := by
      cases hx : L.base.sorts "Integer" with
      | none => rw [hx] at hs; simp at hs
      | some _ => rfl
    have h3 := hint hs
    have hnn : numNew L.base t = [] := by simp [numNew, h1]
    rw [hnn]
    cases t <;> simp [ownNew, Theory.needsArithmeticSorts, h3, hs]
  · have h1 : (L.base.sorts "Integer").isNone = true := by
      cases hx : L.base.sorts "Integer" with
      | none => rfl
      | some _ => rw [hx] at hs; simp at hs
    cases t <;> simp [numNew, ownNew, Theory.needsArithmeticSorts, hs, h1]
    tauto

/-- Outcome of loading a theory that is not there yet. -/
theorem load_outcome {L n t L' e} (hi : CleanInv L) (ht : t ∉ L.theories) (h : loadTheory n L t = some (L', e)) :
    (e = none ↔ Loadable L t) ∧ (e = none → L'.theories = t :: L.theories ∧
      Adds L.base L'.base (numNew L.base t ++ ownNew t) (numPar L.base t ++ ownPar t) (numInfo L.base t ++ ownInfo t) ∧
      LReach LOp.plain L'.base ∧ L'.bsyms = regSyms L.bsyms (loaderBlocks t) ∧ L'.ops = regOps L.ops (loaderBlocks t)) := by
  have hr := hi.reach
  rw [loadable_iff hr]
  unfold loadTheory at h
  rw [if_neg ht, theorySteps_eq] at h
  cases hd : runSteps n L ((numericDecls L.base t ++ ownDecls t).map LoadStep.decl) with
  | none => rw [runSteps_append_none _ _ _ _ hd] at h; simp at h
  | some q =>
    obtain ⟨L1, e1⟩ := q
    obtain ⟨a1, a2, a3, a4, a5, a6⟩ := run_decls hr hd
    cases e1 with
    | some e1 =>
      rw [runSteps_append_error _ _ _ _ _ _ hd] at h
      simp only [Option.some.injEq, Prod.mk.injEq] at h
      obtain ⟨rfl, rfl⟩ := h
      obtain ⟨x, o, hx, hne⟩ := a6 (by simp)
      exact ⟨⟨fun h => (by cases h), fun h => absurd (h.1 x o hx) hne⟩, fun h => (by cases h)⟩
    | none =>
      have hadd := a5 rfl
      rw [runSteps_append _ _ _ _ _ hd] at h
      by_cases hcond : t.needsArithmeticSorts = true → (L.base.sorts "Integer").isSome → (L.base.sorts "Real").isSome
      · have hs1 : ∀ b ∈ loaderBlocks t, ∀ x ∈ b.sorts, (L1.base.sorts x).isSome := by
          intro b hb x hx
          rw [blocks_sorts t b hb x hx]
          split
          · rename_i hnd
            by_cases hs : (L.base.sorts "Integer").isSome
            · exact hadd.some_sort (hcond hnd hs)
            · have hnone : (L.base.sorts "Integer").isNone = true := by
                cases hx : L.base.sorts "Integer" with
                | none => rfl
                | some _ => rw [hx] at hs; simp at hs
              rw [hadd.new_sort (s := "Real") (i := ⟨true, true⟩)]
              · rfl
              · simp [numInfo, hnd, hnone]
          · exact object_sort a4
        have hs2 : ∀ b ∈ loaderBlocks t, L1.bsyms b.sym = none := by
          intro b hb
          rw [a1]
          cases hx : L.bsyms b.sym with
          | none => rfl
          | some a =>
            obtain ⟨t', ht', ho⟩ := ((hi.syms _ _).mp hx).1
            rw [blocks_owner t b hb] at ho
            cases ho
            exact absurd ht' ht
        rw [run_blocks_ok n _ L1 hs1 hs2 (blocks_nodup t)] at h
        simp only [Option.some.injEq, Prod.mk.injEq] at h
        obtain ⟨rfl, rfl⟩ := h
        refine ⟨⟨fun _ => ⟨hadd.free, hcond⟩, fun _ => rfl⟩, fun _ => ⟨by rw [a3], hadd, a4, by rw [a1], by rw [a2]⟩⟩
      · obtain ⟨hnd, hs, hnr⟩ : t.needsArithmeticSorts = true ∧ (L.base.sorts "Integer").isSome ∧ ¬ (L.base.sorts "Real").isSome := by
          by_contra h'
          apply hcond
          intro h1 h2
          by_contra h3
          exact h' ⟨h1, h2, h3⟩
        have hnr1 : L1.base.sorts "Real" = none := by
          cases hx : L1.base.sorts "Real" with
          | none => rfl
          | some i =>
            have hnone : (L.base.sorts "Integer").isNone = false := by
              cases hx : L.base.sorts "Integer" with
              | none => rw [hx] at hs; simp at hs
              | some _ => rfl
            rcases (hadd.sorts "Real" i).mp hx with h' | h'
            · rw [h'] at hnr; simp at hnr
            · simp only [numInfo, hnone, Bool.and_false, Bool.false_eq_true, if_false, List.nil_append] at h'
              cases t <;> simp [ownInfo] at h'
        obtain ⟨L2, h2⟩ := run_blocks_fail n (loaderBlocks t) L1 (blocks_real t hnd).1
          (fun b hb => ⟨"Real", (blocks_real t hnd).2 b hb, hnr1⟩)
        rw [h2] at h
        simp only [Option.some.injEq, Prod.mk.injEq] at h
        obtain ⟨rfl, rfl⟩ := h
        exact ⟨⟨fun h => (by cases h), fun h => absurd h.2 hcond⟩, fun h => (by cases h)⟩

theorem cleanInv_load {L n t L'} (hi : CleanInv L) (h : loadTheory n L t = some (L', none)) : CleanInv L' := by
  by_cases ht : t ∈ L.theories
  · unfold loadTheory at h; rw [if_pos ht] at h; cases h
  · obtain ⟨h1, h2, h3, h4, h5⟩ := (load_outcome hi ht h).2 rfl
    have hl : ∀ s, Loaded L' s ↔ s.owner = some t ∨ Loaded L s := by
      intro s; unfold Loaded; rw [h1]; simp
    refine ⟨h3, by rw [h1]; exact List.nodup_cons.mpr ⟨ht, hi.nodup⟩, ?_, ?_, ?_⟩
    · intro s a
      rw [h4, regSyms_eq, hl]
      by_cases ho : s.owner = some t
      · simp [ho, eq_comm]
      · simp [ho, hi.syms]
    · intro s x
      rw [h5, regOps_bin, hl]
      by_cases ho : s.owner = some t
      · by_cases ha : s.arity = 2
        · simp [ho, ha, eq_comm]
        · simp [ho, ha, hi.bin]
      · simp [ho, hi.bin]
    · intro s x
      rw [h5, regOps_un, hl]
      by_cases ho : s.owner = some t
      · by_cases ha : s.arity = 1
        · simp [ho, ha, eq_comm]
        · simp [ho, ha, hi.un]
      · simp [ho, hi.un]

theorem cleanInv_reach {L} (h : TReach true L) : CleanInv L := by
  induction h with
  | init => exact cleanInv_init
  | step L op n L' e _ hu hs hc ih =>
    have fin : ∀ t, loadTheory n L t = some (L', e) → e = none ∨ L' = L → CleanInv L' := by
      rintro t ht (rfl | rfl)
      · exact cleanInv_load ih ht
      · exact ih
    cases op with
    | load t => exact fin t hs ((hc rfl).resolve_left (by rintro ⟨o, h⟩; cases h))
    | loadNamed x =>
      simp only [tstep, loadTheoryNamed] at hs
      split at hs
      · cases hs; exact ih
      · exact fin _ hs ((hc rfl).resolve_left (by rintro ⟨o, h⟩; cases h))
    | decl op =>
      simp only [tstep, loadStep] at hs
      split at hs
      · cases hs
      · rename_i b e' hl
        cases hs
        refine ⟨.step _ op n _ _ ih.reach hu.1 ?_ hu.2 hl, ih.nodup, ih.syms, ih.bin, ih.un⟩
        intro s p h; subst h; exact absurd hu.1 (by simp [LOp.plain])

/-! ### C73: operators -/

theorem checkArgs_spec {α} {n L} (hr : LReach LOp.plain L) : ∀ (as : List (Operand α)) (ss : List String) (r),
    checkArgs n L as ss = some r → as.length = ss.length →
    r = none ∧ List.Forall₂ (fun a s => Star L.ParentOf a.sort s) as ss ∨
    r = some .sortMismatch ∧ ¬ List.Forall₂ (fun a s => Star L.ParentOf a.sort s) as ss := by
  intro as
  induction as with
  | nil =>
    intro ss r h hl
    cases ss with
    | nil => cases h; exact .inl ⟨rfl, .nil⟩
    | cons => cases hl
  | cons a as ih =>
    intro ss r h hl
    cases ss with
    | nil => cases hl
    | cons s ss =>
      simp only [checkArgs] at h
      split at h
      · cases h
      · rename_i hs
        have := ((C20_subtype_partial hr a.sort s).2 _ _ _ hs).mp rfl
        rcases ih ss r h (by simpa using hl) with ⟨h1, h2⟩ | ⟨h1, h2⟩
        · exact .inl ⟨h1, .cons this h2⟩
        · refine .inr ⟨h1, ?_⟩; rintro (_ | ⟨_, h⟩); exact h2 h
      · rename_i hs
        cases h
        refine .inr ⟨rfl, ?_⟩
        rintro (_ | ⟨h, _⟩)
        exact absurd (((C20_subtype_partial hr a.sort s).2 _ _ _ hs).mpr h) (by simp)

theorem checkArgs_le {α} {n m L} (hm : n ≤ m) : ∀ (as : List (Operand α)) (ss : List String) (r),
    checkArgs n L as ss = some r → checkArgs m L as ss = some r := by
  intro as
  induction as with
  | nil => intro ss r h; cases ss <;> exact h
  | cons a as ih =>
    intro ss r h
    cases ss with
    | nil => exact h
    | cons s ss =>
      simp only [checkArgs] at h ⊢
      cases hs : isSubtype n L a.sort s with
      | none => simp [hs] at h
      | some q =>
        obtain ⟨b, L1⟩ := q
        rw [isSubtype_le hs hm]
        cases b with
        | true => simp only [hs] at h ⊢; exact ih _ _ h
        | false => simpa [hs] using h

theorem checkArgs_returns {α} {L} (hr : LReach LOp.plain L) : ∀ (as : List (Operand α)) (ss : List String),
    ∃ n r, checkArgs n L as ss = some r := by
  intro as
  induction as with
  | nil => intro ss; cases ss <;> exact ⟨0, _, rfl⟩
  | cons a as ih =>
    intro ss
    cases ss with
    | nil => exact ⟨0, _, rfl⟩
    | cons s ss =>
      obtain ⟨n, ⟨b, L1⟩, hn⟩ := (C20_subtype_partial hr a.sort s).1
      cases b with
      | false => exact ⟨n, some .sortMismatch, by simp only [checkArgs, hn]⟩
      | true =>
        obtain ⟨m, r, hm⟩ := ih ss
        refine ⟨max n m, r, ?_⟩
        simp only [checkArgs, isSubtype_le hn (Nat.le_max_left n m)]
        exact checkArgs_le (Nat.le_max_right n m) _ _ _ hm

theorem forall₂_replicate {α β} {R : α → β → Prop} {b : β} : ∀ (l : List α) (k : Nat), l.length = k →
    (List.Forall₂ R l (List.replicate k b) ↔ ∀ a ∈ l, R a b) := by
  intro l
  induction l with
  | nil => intro k h; subst h; simp
  | cons a l ih =>
    intro k h
    subst h
    simp [List.replicate_succ, ih l.length rfl]

/-- The factory of a symbol. -/
def createFor {α} (n : Nat) (L : TLang) (s : BSym) (args : List (Operand α)) : Option (Except Err (Built α)) :=
  match s with
  | .pred c => createAtom n L c args
  | .fn f => createTerm n L f args

/-- Applying a builtin symbol of a loaded theory to the right number of arguments. -/
theorem create_spec {α} {L : TLang} (hi : CleanInv L) {s : BSym} (hl : Loaded L s) (args : List (Operand α)) (ha : args.length = s.arity) :
    (∃ n r, createFor n L s args = some r) ∧
    ∀ n r, createFor n L s args = some r →
      ((∀ a ∈ args, Star L.base.ParentOf a.sort s.argSort) → r = .ok (s.build (args.map (·.x)))) ∧
      ((∃ a ∈ args, ¬ Star L.base.ParentOf a.sort s.argSort) → r = .error .sortMismatch) := by
  have hsig := (hi.syms s s.signature).mpr ⟨hl, rfl⟩
  have key : ∀ n r, checkArgs n L.base args (List.replicate s.arity s.argSort) = some r →
      ((∀ a ∈ args, Star L.base.ParentOf a.sort s.argSort) → r = none) ∧
      ((∃ a ∈ args, ¬ Star L.base.ParentOf a.sort s.argSort) → r = some .sortMismatch) := by
    intro n r h
    have h2 := checkArgs_spec hi.reach args _ r h (by simp [ha])
    rw [forall₂_replicate args _ ha] at h2
    rcases h2 with ⟨h1, h2⟩ | ⟨h1, h2⟩
    · exact ⟨fun _ => h1, fun ⟨a, ha, hn⟩ => absurd (h2 a ha) hn⟩
    · exact ⟨fun h => absurd h h2, fun _ => h1⟩
  obtain ⟨m, q, hm⟩ := checkArgs_returns hi.reach args (List.replicate s.arity s.argSort)
  cases s with
  | pred c =>
    have hs2 : (BSym.pred c).signature = List.replicate (BSym.pred c).arity (BSym.pred c).argSort := by simp [BSym.signature]
    simp only [createFor, createAtom, hsig, hs2, List.length_replicate, ha]
    simp only [ne_eq, not_true_eq_false, if_false]
    constructor
    · refine ⟨m, ?_⟩
      rw [hm]
      cases q with
      | none => exact ⟨_, rfl⟩
      | some e => exact ⟨_, rfl⟩
    · intro n r h
      cases hc : checkArgs n L.base args (List.replicate (BSym.pred c).arity (BSym.pred c).argSort) with
      | none => simp [hc] at h
      | some q =>
        have hk := key n q hc
        simp only [hc] at h
        constructor
        · intro h1; rw [hk.1 h1] at h; cases h; rfl
        · intro h1; rw [hk.2 h1] at h; cases h; rfl
  | fn f =>
    have hs2 : (BSym.fn f).signature = List.replicate (BSym.fn f).arity (BSym.fn f).argSort ++ ["Real"] := by simp [BSym.signature]
    simp only [createFor, createTerm, hsig, hs2, List.length_append, List.length_replicate, List.length_cons, List.length_nil, Nat.zero_add,
      Nat.add_sub_cancel, ha, List.dropLast_concat]
    simp only [ne_eq, not_true_eq_false, if_false]
    constructor
    · refine ⟨m, ?_⟩
      rw [hm]
      cases q with
      | none => exact ⟨_, rfl⟩
      | some e => exact ⟨_, rfl⟩
    · intro n r h
      cases hc : checkArgs n L.base args (List.replicate (BSym.fn f).arity (BSym.fn f).argSort) with
      | none => simp [hc] at h
      | some q =>
        have hk := key n q hc
        simp only [hc] at h
        constructor
        · intro h1; rw [hk.1 h1] at h; cases h; rfl
        · intro h1; rw [hk.2 h1] at h; cases h; rfl

/-- C73: the builtin symbols of a language are exactly those of its theories, with the right sorts. -/
theorem C73_symbols {L} (h : TReach true L) (s : BSym) (sorts : List String) :
    L.bsyms s = some sorts ↔ Loaded L s ∧ sorts = s.signature :=
  (cleanInv_reach h).syms s sorts

/-- C73: `lhs op rhs` on terms. A language that does not load the theory of the operator raises LanguageError;
otherwise the call returns, and builds the expression with the operands in their order exactly when both operands
have a suitable sort. -/
theorem C73_operator {α} {L} (h : TReach true L) (s : BSym) (lhs rhs : Operand α) :
    (¬ (Loaded L s ∧ s.arity = 2) → ∀ n, dispatchOp n L s lhs rhs = some (.error .language)) ∧
    (Loaded L s ∧ s.arity = 2 → (∃ n r, dispatchOp n L s lhs rhs = some r) ∧
      ∀ n r, dispatchOp n L s lhs rhs = some r →
        (Star L.base.ParentOf lhs.sort s.argSort ∧ Star L.base.ParentOf rhs.sort s.argSort → r = .ok (s.build [lhs.x, rhs.x])) ∧
        (¬ (Star L.base.ParentOf lhs.sort s.argSort ∧ Star L.base.ParentOf rhs.sort s.argSort) → r = .error .sortMismatch)) := by
  have hi := cleanInv_reach h
  constructor
  · intro hn n
    unfold dispatchOp
    cases hx : L.ops (.bin s) with
    | none => rfl
    | some x => exact absurd ⟨((hi.bin s x).mp hx).1, ((hi.bin s x).mp hx).2.1⟩ hn
  · rintro ⟨hl, ha⟩
    have hx := (hi.bin s _).mpr ⟨hl, ha, rfl⟩
    have heq : ∀ n, dispatchOp n L s lhs rhs =
        createFor n L s [lhs, rhs] := by
      intro n
      unfold dispatchOp
      rw [hx]
      cases s <;> rfl
    simp only [heq]
    obtain ⟨h1, h2⟩ := create_spec hi hl [lhs, rhs] (by simp [ha])
    refine ⟨h1, fun n r hr => ?_⟩
    obtain ⟨h3, h4⟩ := h2 n r hr
    constructor
    · rintro ⟨a, b⟩
      exact h3 (by simp [a, b])
    · intro hn
      apply h4
      by_cases hl : Star L.base.ParentOf lhs.sort s.argSort
      · exact ⟨rhs, by simp, fun hr => hn ⟨hl, hr⟩⟩
      · exact ⟨lhs, by simp, hl⟩

/-- C73: the functions `sqrt`, `min`, `sin`, `normal`, ... applied to terms: they build the term when the theory is
loaded and the arguments are numbers, and raise otherwise. -/
theorem C73_function {α} {L} (h : TReach true L) (f : BFun) (args : List (Operand α)) (ha : args.length = (BSym.fn f).arity) :
    (¬ Loaded L (.fn f) → ∀ n, applyBuiltin n L f args = some (.error .undefinedVariable)) ∧
    (Loaded L (.fn f) → (∃ n r, applyBuiltin n L f args = some r) ∧
      ∀ n r, applyBuiltin n L f args = some r →
        ((∀ a ∈ args, Star L.base.ParentOf a.sort "Real") → r = .ok (.term f (args.map (·.x)))) ∧
        ((∃ a ∈ args, ¬ Star L.base.ParentOf a.sort "Real") → r = .error .sortMismatch)) := by
  have hi := cleanInv_reach h
  constructor
  · intro hn n
    unfold applyBuiltin createTerm
    cases hx : L.bsyms (.fn f) with
    | none => rfl
    | some x => exact absurd ((hi.syms _ x).mp hx).1 hn
  · intro hl
    have := create_spec hi hl args ha
    have hs : (BSym.fn f).argSort = "Real" := by cases f <;> rfl
    rw [hs] at this
    exact this

/-- C73 for `dispatch_unary_operator`, in full: a unary operator of a loaded theory builds its term. -/
def C73_unary_full : Prop := ∀ {α : Type} (L : TLang), TReach true L → ∀ (s : BSym) (x : Operand α), Loaded L s → s.arity = 1 →
  Star L.base.ParentOf x.sort s.argSort → ∃ n, dispatchUnary n L s x = some (.ok (s.build [x.x]))

/-- The code raises TypeError for every unary operator of every loaded theory: the handlers take two operands. -/
theorem C73_unary_raises {α} {L} (h : TReach true L) (s : BSym) (x : Operand α) (hl : Loaded L s) (ha : s.arity = 1) (n : Nat) :
    dispatchUnary n L s x = some (.error .typeError) := by
  unfold dispatchUnary
  rw [((cleanInv_reach h).un s _).mpr ⟨hl, ha, rfl⟩]
  rfl

/-! ### C74: loading -/

theorem theorySteps_safe (L : TLang) (t : Theory) : SafeSteps ["object"] (theorySteps L t) := by
  unfold theorySteps
  cases t <;> split <;>
    simp [SafeSteps, loaderSteps, arithmeticSorts, equalityPredicates, arithmeticPredicates, arithmeticBinary,
      arithmeticUnary, specialBinary, specialUnary, randomBinary, randomUnary, predSteps, binSteps, unSteps]

theorem reach_base {b L} (h : TReach b L) : LReach LOp.plain L.base := by
  induction h with
  | init => exact .init
  | step L op n L' e _ hu hs _ ih =>
    have fin : ∀ t, loadTheory n L t = some (L', e) → LReach LOp.plain L'.base := by
      intro t ht
      unfold loadTheory at ht
      split at ht
      · cases ht; exact ih
      · cases hrun : runSteps n L (theorySteps L t) with
        | none => simp [hrun] at ht
        | some q =>
          obtain ⟨L1, e1⟩ := q
          have := (keeps_runSteps ih (by simpa using object_sort ih) (theorySteps_safe L t) hrun).1
          cases e1 with
          | some e1 => simp only [hrun] at ht; cases ht; exact this
          | none => simp only [hrun] at ht; cases ht; exact this
    cases op with
    | load t => exact fin t hs
    | loadNamed x =>
      simp only [tstep, loadTheoryNamed] at hs
      split at hs
      · cases hs; exact ih
      · exact fin _ hs
    | decl op =>
      simp only [tstep, loadStep] at hs
      split at hs
      · cases hs
      · rename_i b e' hl
        cases hs
        refine .step _ op n _ _ ih hu.1 ?_ hu.2 hl
        intro s p h; subst h; exact absurd hu.1 (by simp [LOp.plain])

theorem keeps_syms {n} : ∀ (sts : List LoadStep) {L L' e}, runSteps n L sts = some (L', e) →
    (∀ s a, L.bsyms s = some a → L'.bsyms s = some a) ∧ (∀ k, (L.ops k).isSome → (L'.ops k).isSome) := by
  intro sts
  induction sts with
  | nil => intro L L' e h; cases h; exact ⟨fun _ _ h => h, fun _ h => h⟩
  | cons st sts ih =>
    intro L L' e h
    simp only [runSteps] at h
    have one : ∀ {L1 e1}, loadStep n L st = some (L1, e1) →
        (∀ s a, L.bsyms s = some a → L1.bsyms s = some a) ∧ (∀ k, (L.ops k).isSome → (L1.ops k).isSome) := by
      intro L1 e1 h1
      cases st with
      | decl op =>
        simp only [loadStep] at h1
        split at h1
        · cases h1
        · cases h1; exact ⟨fun _ _ h => h, fun _ h => h⟩
      | handler k x =>
        cases h1
        refine ⟨fun _ _ h => h, fun k' h => ?_⟩
        simp only [upd]; split
        · rfl
        · exact h
      | symbol s ss =>
        simp only [loadStep] at h1
        split at h1
        · cases h1; exact ⟨fun _ _ h => h, fun _ h => h⟩
        · split at h1
          · cases h1; exact ⟨fun _ _ h => h, fun _ h => h⟩
          · rename_i hs
            cases h1
            refine ⟨fun s' a h0 => ?_, fun _ h => h⟩
            simp only [upd]; split
            · rename_i he; subst he; rw [h0] at hs; simp at hs
            · exact h0
    cases hl : loadStep n L st with
    | none => simp [hl] at h
    | some q =>
      obtain ⟨L1, e1⟩ := q
      have h1 := one hl
      cases e1 with
      | some e1 => simp only [hl] at h; cases h; exact h1
      | none =>
        simp only [hl] at h
        have h2 := ih h
        exact ⟨fun s a h => h2.1 s a (h1.1 s a h), fun k h => h2.2 k (h1.2 k h)⟩

theorem star_keeps {L L' : Lang} (hr : LReach LOp.plain L) (hk : Keeps L L') {a b} (ha : (L.sorts a).isSome) :
    Star L'.ParentOf a b ↔ Star L.ParentOf a b := by
  have ht := (domInv_reach hr).tree.hier
  constructor
  · intro h
    induction h with
    | refl => exact .refl _
    | step a b c h _ ih =>
      have h1 : L.ParentOf a b := by unfold Lang.ParentOf at h ⊢; rw [← hk.parent a ha]; exact h
      exact .step _ _ _ h1 (ih (ht.parReg _ _ h1))
  · intro h
    induction h with
    | refl => exact .refl _
    | step a b c h _ ih =>
      have h1 : L'.ParentOf a b := by unfold Lang.ParentOf at h ⊢; rw [hk.parent a ha]; exact h
      exact .step _ _ _ h1 (ih (ht.parReg _ _ h))

theorem load_keeps {b L n t L' e} (h : TReach b L) (hl : loadTheory n L t = some (L', e)) :
    Keeps L.base L'.base ∧ (∀ s a, L.bsyms s = some a → L'.bsyms s = some a) ∧ (∀ k, (L.ops k).isSome → (L'.ops k).isSome) ∧
      (∀ t' ∈ L.theories, t' ∈ L'.theories) := by
  have hr := reach_base h
  unfold loadTheory at hl
  split at hl
  · cases hl; exact ⟨.refl _, fun _ _ h => h, fun _ h => h, fun _ h => h⟩
  · cases hrun : runSteps n L (theorySteps L t) with
    | none => simp [hrun] at hl
    | some q =>
      obtain ⟨L1, e1⟩ := q
      obtain ⟨_, h2, h3⟩ := keeps_runSteps hr (by simpa using object_sort hr) (theorySteps_safe L t) hrun
      obtain ⟨h4, h5⟩ := keeps_syms _ hrun
      cases e1 with
      | some e1 => simp only [hrun] at hl; cases hl; exact ⟨h2, h4, h5, by rw [h3]; exact fun _ h => h⟩
      | none => simp only [hrun] at hl; cases hl; exact ⟨h2, h4, h5, by rw [h3]; exact fun _ h => .tail _ h⟩

/-- C74: loading a theory, whether it succeeds or raises, keeps every name with its meaning, every sort with its
attributes and ancestors, every builtin symbol, every operator and every theory that the language had. -/
theorem C74_conservative {L} (h : TReach false L) {n t L' e} (hl : loadTheory n L t = some (L', e)) :
    (∀ x o, Declared L.base x o → Declared L'.base x o) ∧
    (∀ s i, L.base.sorts s = some i → L'.base.sorts s = some i) ∧
    (∀ a b, (L.base.sorts a).isSome → (Star L'.base.ParentOf a b ↔ Star L.base.ParentOf a b)) ∧
    (∀ s a, L.bsyms s = some a → L'.bsyms s = some a) ∧ (∀ k, (L.ops k).isSome → (L'.ops k).isSome) ∧
    (∀ t' ∈ L.theories, t' ∈ L'.theories) := by
  have hr := reach_base h
  obtain ⟨hk, h4, h5, h6⟩ := load_keeps h hl
  have hr' := reach_base (.step L (.load t) n L' e h trivial hl (by simp))
  refine ⟨?_, hk.sorts, fun a b ha => star_keeps hr hk ha, h4, h5, h6⟩
  intro x o hx
  rw [declared_iff_index (nameInv_reach hr)] at hx
  rw [declared_iff_index (nameInv_reach hr')]
  exact hk.index x o hx

/-- C74: loading always returns. -/
theorem C74_returns {L} (h : TReach false L) (t : Theory) : ∃ n r, loadTheory n L t = some r := by
  have hr := reach_base h
  obtain ⟨n, ⟨L1, e1⟩, hn⟩ := terminates_runSteps hr (by simpa using object_sort hr) (theorySteps_safe L t)
  refine ⟨n, ?_⟩
  unfold loadTheory
  split
  · exact ⟨_, rfl⟩
  · rw [hn]
    cases e1 with
    | none => exact ⟨_, rfl⟩
    | some e => exact ⟨_, rfl⟩

/-- C74: a theory is loaded at most once: the second call raises and changes nothing. -/
theorem C74_duplicate (L : TLang) (t : Theory) (ht : t ∈ L.theories) (n : Nat) : loadTheory n L t = some (L, some .language) := by
  unfold loadTheory; rw [if_pos ht]

/-- C74: names of theories. -/
theorem C74_names (s : String) (t : Theory) : Theory.ofString s = some t ↔
    (s, t) ∈ [("boolean", Theory.boolean), ("equality", .equality), ("arithmetic", .arithmetic), ("special", .special),
      ("random", .random)] := by
  unfold Theory.ofString
  split
  · subst s; cases t <;> simp
  split
  · subst s; cases t <;> simp
  split
  · subst s; cases t <;> simp
  split
  · subst s; cases t <;> simp
  split
  · subst s; cases t <;> simp
  · simp_all

/-- C74: an unknown theory raises and changes nothing. -/
theorem C74_unknown (L : TLang) (s : String) (hs : ∀ t, Theory.ofString s ≠ some t) (n : Nat) :
    loadTheoryNamed n L s = some (L, some .value) := by
  unfold loadTheoryNamed
  cases h : Theory.ofString s with
  | none => rfl
  | some t => exact absurd h (hs t)

/-- C74: on a language where no load failed half-way, loading a theory that is not there yet succeeds exactly when the
names that it needs are available; the theory, and nothing else, is then recorded as loaded. -/
theorem C74_load_iff {L} (h : TReach true L) {n t L' e} (ht : t ∉ L.theories) (hl : loadTheory n L t = some (L', e)) :
    (e = none ↔ Loadable L t) ∧ (e = none → L'.theories = t :: L.theories) := by
  obtain ⟨h1, h2⟩ := load_outcome (cleanInv_reach h) ht hl
  exact ⟨h1, fun he => (h2 he).1⟩

/-! ### Fresh languages -/

/-- Contents of a language on which only theories have been loaded. -/
structure FreshInv (L : TLang) : Prop where
  idx : ∀ x o, L.base.index x = some o ↔ Vocab L.theories x o
  par : ∀ x p, L.base.ParentOf x p ↔ FreshParent L.theories x p
  info : ∀ x i, L.base.sorts x = some i ↔ Vocab L.theories x (.sort x) ∧
    i = if x = "object" ∨ x = "Boolean" then ⟨false, false⟩ else ⟨true, true⟩

theorem vocab_iff (T : List Theory) (x : String) (o : LObj) : Vocab T x o ↔
    (x = "object" ∧ o = .sort "object") ∨ (Numeric T ∧ (x = "Real" ∧ o = .sort "Real" ∨ x = "Integer" ∧ o = .sort "Integer" ∨ x = "Natural" ∧ o = .sort "Natural")) ∨
    (.boolean ∈ T ∧ (x = "Boolean" ∧ o = .sort "Boolean" ∨ x = "True" ∧ o = .const "True" "Boolean" ∨ x = "False" ∧ o = .const "False" "Boolean")) ∨
    (.arithmetic ∈ T ∧ x = "ite" ∧ o = .func "ite" ["object", "object", "object"]) := by
  constructor
  · rintro (_ | ⟨_, h, hx⟩ | h | ⟨_, h, hx⟩ | h)
    · exact .inl ⟨rfl, rfl⟩
    · simp only [List.mem_cons, List.not_mem_nil, or_false] at hx
      rcases hx with rfl | rfl | rfl <;> simp [h]
    · simp [h]
    · simp only [List.mem_cons, List.not_mem_nil, or_false] at hx
      rcases hx with rfl | rfl <;> simp [h]
    · simp [h]
  · rintro (⟨rfl, rfl⟩ | ⟨h, ⟨rfl, rfl⟩ | ⟨rfl, rfl⟩ | ⟨rfl, rfl⟩⟩ | ⟨h, ⟨rfl, rfl⟩ | ⟨rfl, rfl⟩ | ⟨rfl, rfl⟩⟩ | ⟨h, rfl, rfl⟩)
    · exact .object
    · exact .number _ h (by simp)
    · exact .number _ h (by simp)
    · exact .number _ h (by simp)
    · exact .bool h
    · exact .truth _ h (by simp)
    · exact .truth _ h (by simp)
    · exact .ite h

theorem freshParent_iff (T : List Theory) (x p : String) : FreshParent T x p ↔
    (Numeric T ∧ (x = "Real" ∧ p = "object" ∨ x = "Integer" ∧ p = "Real" ∨ x = "Natural" ∧ p = "Integer")) ∨
    (.boolean ∈ T ∧ x = "Boolean" ∧ p = "object") := by
  constructor
  · rintro (h | h | h | h) <;> simp [h]
  · rintro (⟨h, ⟨rfl, rfl⟩ | ⟨rfl, rfl⟩ | ⟨rfl, rfl⟩⟩ | ⟨h, rfl, rfl⟩)
    · exact .real h
    · exact .int h
    · exact .nat h
    · exact .bool h

theorem freshInv_init : FreshInv TLang.init := by
  refine ⟨?_, ?_, ?_⟩
  · intro x o
    rw [vocab_iff]
    simp [TLang.init, Lang.init, upd, Numeric, eq_comm]
  · intro x p
    rw [freshParent_iff]
    simp only [TLang.init, Lang.ParentOf, Lang.init, upd, Numeric]
    split <;> simp
  · intro x i
    rw [vocab_iff]
    simp only [TLang.init, Lang.init, upd, Numeric]
    by_cases h : x = "object"
    · subst h; simp [eq_comm]
    · simp [h]

theorem numeric_cons (t : Theory) (T : List Theory) : Numeric (t :: T) ↔ t.needsArithmeticSorts = true ∨ Numeric T := by
  unfold Numeric
  cases t <;> simp [Theory.needsArithmeticSorts]

theorem fresh_integer {L} (hf : FreshInv L) : (L.base.sorts "Integer").isNone = true ↔ ¬ Numeric L.theories := by
  have h := hf.info "Integer" ⟨true, true⟩
  rw [vocab_iff] at h
  simp at h
  cases hs : L.base.sorts "Integer" with
  | none => rw [hs] at h; simpa using h
  | some i =>
    have h2 := (hf.info "Integer" i).mp hs
    rw [vocab_iff] at h2
    simp at h2
    simp [h2.1]

theorem fresh_loadable {L t} (hi : CleanInv L) (hf : FreshInv L) (ht : t ∉ L.theories) : Loadable L t := by
  rw [loadable_iff hi.reach]
  have hnone : ∀ x, (∀ o, ¬ Vocab L.theories x o) → L.base.index x = none := by
    intro x hx
    cases h : L.base.index x with
    | none => rfl
    | some o => exact absurd ((hf.idx x o).mp h) (hx o)
  have hnum := fresh_integer hf
  constructor
  · intro x o hx
    apply hnone
    intro o'
    rw [vocab_iff]
    rcases List.mem_append.mp hx with hx | hx
    · unfold numNew at hx
      split at hx
      · rename_i hc
        simp only [Bool.and_eq_true] at hc
        have := hnum.mp hc.2
        simp only [List.mem_cons, Prod.mk.injEq, List.not_mem_nil, or_false] at hx
        rcases hx with ⟨rfl, _⟩ | ⟨rfl, _⟩ | ⟨rfl, _⟩ <;> simp [this]
      · cases hx
    · cases t <;> simp [ownNew] at hx
      · rcases hx with ⟨rfl, _⟩ | ⟨rfl, _⟩ | ⟨rfl, _⟩ <;> simp [ht]
      · obtain ⟨rfl, _⟩ := hx; simp [ht]
  · intro _ hs
    have h1 : Numeric L.theories := by
      by_contra hc
      have := hnum.mpr hc
      cases hx : L.base.sorts "Integer" with
      | none => rw [hx] at hs; simp at hs
      | some _ => rw [hx] at this; simp at this
    rw [(hf.info "Real" ⟨true, true⟩).mpr ⟨.number _ h1 (by simp), by simp⟩]; rfl

theorem fresh_load {L t L'} (hi : CleanInv L) (hf : FreshInv L) (ht : t ∉ L.theories) {n} (h : loadTheory n L t = some (L', none)) :
    FreshInv L' := by
  obtain ⟨h1, ha, h3, h4, h5⟩ := (load_outcome hi ht h).2 rfl
  have hnum := fresh_integer hf
  by_cases hn : Numeric L.theories
  · have hno : (L.base.sorts "Integer").isNone = false := by
      rw [Bool.eq_false_iff]; intro hc; exact hnum.mp hc hn
    simp only [numNew, numPar, numInfo, hno, Bool.and_false, Bool.false_eq_true, if_false, List.nil_append] at ha
    refine ⟨?_, ?_, ?_⟩
    · intro x o
      rw [ha.idx, hf.idx, h1, vocab_iff, vocab_iff, numeric_cons]
      cases t <;> simp [hn, ownNew]
      · simp [ht]
        apply iff_of_eq; ac_rfl
      · simp [ht]
        apply iff_of_eq; ac_rfl
    · intro x p
      rw [ha.parent, hf.par, h1, freshParent_iff, freshParent_iff, numeric_cons]
      cases t <;> simp [hn, ownPar]
      · simp [ht]
    · intro x i
      rw [ha.sorts, hf.info, h1, vocab_iff, vocab_iff, numeric_cons]
      cases t <;> simp [hn, ownInfo]
      · simp [ht]
        grind
  · have hno := hnum.mpr hn
    refine ⟨?_, ?_, ?_⟩
    · intro x o
      rw [ha.idx, hf.idx, h1, vocab_iff, vocab_iff, numeric_cons]
      cases t <;> simp [hn, ownNew, numNew, hno, Theory.needsArithmeticSorts]
      all_goals (try simp [ht])
      all_goals (apply iff_of_eq; ac_rfl)
    · intro x p
      rw [ha.parent, hf.par, h1, freshParent_iff, freshParent_iff, numeric_cons]
      cases t <;> simp [hn, ownPar, numPar, hno, Theory.needsArithmeticSorts]
      all_goals (try simp [ht])
      all_goals grind
    · intro x i
      rw [ha.sorts, hf.info, h1, vocab_iff, vocab_iff, numeric_cons]
      cases t <;> simp [hn, ownInfo, numInfo, hno, Theory.needsArithmeticSorts]
      all_goals (try simp [ht])
      all_goals grind

theorem ofString_inj {a b : String} {t} (ha : Theory.ofString a = some t) (hb : Theory.ofString b = some t) : a = b := by
  rw [C74_names] at ha hb
  cases t <;> simp_all

theorem loadAll_spec {n} : ∀ (names : List String) {L L' e}, CleanInv L → FreshInv L → loadAll n L names = some (L', e) →
    (e = none ↔ (∀ s ∈ names, ∃ t, Theory.ofString s = some t ∧ t ∉ L.theories) ∧ names.Nodup) ∧
    (e = none → CleanInv L' ∧ FreshInv L' ∧ ∀ t, t ∈ L'.theories ↔ t ∈ L.theories ∨ ∃ s ∈ names, Theory.ofString s = some t) ∧
    (∀ x, e = some x → (x = .value ∧ ∃ s ∈ names, Theory.ofString s = none) ∨ x = .language) := by
  intro names
  induction names with
  | nil => intro L L' e hc hf h; cases h; exact ⟨by simp, fun _ => ⟨hc, hf, by simp⟩, by simp⟩
  | cons s names ih =>
    intro L L' e hc hf h
    simp only [loadAll, loadTheoryNamed] at h
    cases ho : Theory.ofString s with
    | none =>
      simp only [ho] at h
      cases h
      exact ⟨by simp [ho], by simp, by simp [ho]⟩
    | some t =>
      simp only [ho] at h
      by_cases ht : t ∈ L.theories
      · rw [C74_duplicate L t ht] at h
        simp only at h
        cases h
        refine ⟨?_, by simp, by simp⟩
        simp [ho, ht]
      · cases hl : loadTheory n L t with
        | none => simp [hl] at h
        | some q =>
          obtain ⟨L1, e1⟩ := q
          have he1 : e1 = none := (load_outcome hc ht hl).1.mpr (fresh_loadable hc hf ht)
          subst he1
          simp only [hl] at h
          have hc1 := cleanInv_load hc hl
          have hf1 := fresh_load hc hf ht hl
          have hth := ((load_outcome hc ht hl).2 rfl).1
          obtain ⟨h1, h2, h3⟩ := ih hc1 hf1 h
          refine ⟨?_, ?_, ?_⟩
          · rw [h1, hth]
            simp only [List.mem_cons, List.nodup_cons, forall_eq_or_imp, ho, Option.some.injEq, exists_eq_left', ht,
              not_false_eq_true, true_and, not_or]
            constructor
            · rintro ⟨a, b⟩
              refine ⟨fun x hx => ?_, ?_, b⟩
              · obtain ⟨t', c1, c2, c3⟩ := a x hx; exact ⟨t', c1, c3⟩
              · intro hs; obtain ⟨t', c1, c2, c3⟩ := a s hs; rw [ho] at c1; cases c1; exact c2 rfl
            · rintro ⟨a, b, c⟩
              refine ⟨fun x hx => ?_, c⟩
              obtain ⟨t', c1, c2⟩ := a x hx
              refine ⟨t', c1, ?_, c2⟩
              rintro rfl
              rw [ofString_inj c1 ho] at hx; exact b hx
          · intro he
            obtain ⟨a, b, c⟩ := h2 he
            refine ⟨a, b, fun t' => ?_⟩
            rw [c, hth]
            simp only [List.mem_cons, exists_eq_or_imp, ho, Option.some.injEq]
            rw [eq_comm (a := t)]
            apply iff_of_eq; ac_rfl
          · intro x hx
            rcases h3 x hx with ⟨a, y, b, c⟩ | a
            · exact .inl ⟨a, y, .tail _ b, c⟩
            · exact .inr a

/-- C74: `language(theories=names)` succeeds exactly when every name is a theory and none is repeated; otherwise it
raises ValueError or DuplicateTheoryDefinition. -/
theorem C74_language_iff {n names r} (h : makeLanguage n names = some r) :
    ((∃ L, r = .ok L) ↔ (∀ s ∈ names, ∃ t, Theory.ofString s = some t) ∧ names.Nodup) ∧
    (∀ e, r = .error e → e = .value ∨ e = .language) := by
  unfold makeLanguage at h
  cases hl : loadAll n TLang.init names with
  | none => simp [hl] at h
  | some q =>
    obtain ⟨L, e⟩ := q
    obtain ⟨h1, _, h3⟩ := loadAll_spec names cleanInv_init freshInv_init hl
    cases e with
    | some e =>
      simp only [hl] at h
      cases h
      refine ⟨⟨(by rintro ⟨L, h⟩; cases h), fun hh => ?_⟩, ?_⟩
      · have := h1.mpr ⟨fun s hs => by obtain ⟨t, ht⟩ := hh.1 s hs; exact ⟨t, ht, by simp [TLang.init]⟩, hh.2⟩
        cases this
      · intro e' he'; cases he'
        rcases h3 e rfl with ⟨a, _⟩ | a
        · exact .inl a
        · exact .inr a
    | none =>
      simp only [hl] at h
      cases h
      refine ⟨⟨fun _ => ?_, fun _ => ⟨_, rfl⟩⟩, (by intro e h; cases h)⟩
      obtain ⟨a, b⟩ := h1.mp rfl
      exact ⟨fun s hs => by obtain ⟨t, ht, _⟩ := a s hs; exact ⟨t, ht⟩, b⟩

/-- C74: the contents of a new language, for every list of theories: names, sort hierarchy, builtin symbols. -/
theorem C74_language_contents {n names L} (h : makeLanguage n names = some (.ok L)) :
    (∀ t, t ∈ L.theories ↔ ∃ s ∈ names, Theory.ofString s = some t) ∧
    (∀ x o, Declared L.base x o ↔ Vocab L.theories x o) ∧
    (∀ s p, L.base.ParentOf s p ↔ FreshParent L.theories s p) ∧
    (∀ s a, L.bsyms s = some a ↔ Loaded L s ∧ a = s.signature) ∧
    (∀ s c, c ∈ L.base.dom s ↔ .boolean ∈ L.theories ∧ (c = "True" ∨ c = "False") ∧ (s = "Boolean" ∨ s = "object")) := by
  unfold makeLanguage at h
  cases hl : loadAll n TLang.init names with
  | none => simp [hl] at h
  | some q =>
    obtain ⟨L, e⟩ := q
    cases e with
    | some e => simp only [hl] at h; cases h
    | none =>
      simp only [hl] at h
      cases h
      obtain ⟨_, h2, _⟩ := loadAll_spec names cleanInv_init freshInv_init hl
      obtain ⟨hc, hf, ht⟩ := h2 rfl
      have hn := nameInv_reach hc.reach
      refine ⟨by simpa [TLang.init] using ht, ?_, hf.par, hc.syms, ?_⟩
      · intro x o; rw [declared_iff_index hn, hf.idx]
      · intro s c
        rw [(domInv_reach hc.reach).dom c s]
        have hcon : ∀ c s, L.base.consts c = some s ↔ .boolean ∈ L.theories ∧ (c = "True" ∨ c = "False") ∧ s = "Boolean" := by
          intro c s
          rw [hn.const, hf.idx, vocab_iff]
          simp
          grind
        have hint : ∀ x, L.base.isInterval x ↔ Numeric L.theories ∧ (x = "Real" ∨ x = "Integer" ∨ x = "Natural") := by
          intro x
          unfold Lang.isInterval
          simp only [hf.info, vocab_iff]
          constructor
          · rintro ⟨i, ⟨h1, h2⟩, h3⟩
            subst h2
            split at h3
            · cases h3
            · rename_i hne
              rw [not_or] at hne
              simpa [hne.1, hne.2] using h1
          · rintro ⟨h1, h2⟩
            refine ⟨⟨true, true⟩, ⟨?_, ?_⟩, rfl⟩
            · rcases h2 with rfl | rfl | rfl <;> simp [h1]
            · rcases h2 with rfl | rfl | rfl <;> simp
        constructor
        · rintro ⟨s', h1, h2, h3, h4⟩
          rw [hcon] at h1
          obtain ⟨h1, h5, rfl⟩ := h1
          refine ⟨h1, h5, ?_⟩
          cases h4 with
          | refl => exact .inl rfl
          | step _ b _ hb hs =>
            rw [hf.par, freshParent_iff] at hb
            simp at hb
            rw [hb.2] at hs
            cases hs with
            | refl => exact .inr rfl
            | step _ b' _ hb' _ => rw [hf.par, freshParent_iff] at hb'; simp at hb'
        · rintro ⟨h1, h2, h3⟩
          refine ⟨"Boolean", (hcon _ _).mpr ⟨h1, h2, rfl⟩, ?_, ?_, ?_⟩
          · rw [hint]; simp
          · rw [hint]; rcases h3 with rfl | rfl <;> simp
          · rcases h3 with rfl | rfl
            · exact .refl _
            · exact .single ((hf.par _ _).mpr (.bool h1))

/-- C74: the order in which theories are given does not matter. -/
theorem C74_order {n m names names' L L'} (h : makeLanguage n names = some (.ok L)) (h' : makeLanguage m names' = some (.ok L'))
    (hs : ∀ s, s ∈ names ↔ s ∈ names') : SameLanguage L L' := by
  have inv : ∀ {n names L}, makeLanguage n names = some (.ok L) → CleanInv L ∧ FreshInv L := by
    intro n names L h
    unfold makeLanguage at h
    cases hl : loadAll n TLang.init names with
    | none => simp [hl] at h
    | some q =>
      obtain ⟨L, e⟩ := q
      cases e with
      | some e => simp only [hl] at h; cases h
      | none =>
        simp only [hl] at h
        cases h
        have := (loadAll_spec names cleanInv_init freshInv_init hl).2.1 rfl
        exact ⟨this.1, this.2.1⟩
  obtain ⟨hc, hf⟩ := inv h
  obtain ⟨hc', hf'⟩ := inv h'
  obtain ⟨a1, a2, a3, a4, a5⟩ := C74_language_contents h
  obtain ⟨b1, b2, b3, b4, b5⟩ := C74_language_contents h'
  have ht : ∀ t, t ∈ L.theories ↔ t ∈ L'.theories := by
    intro t; rw [a1, b1]; simp only [hs]
  have hnum : Numeric L.theories ↔ Numeric L'.theories := by unfold Numeric; rw [ht, ht, ht]
  have hv : ∀ x o, Vocab L.theories x o ↔ Vocab L'.theories x o := by
    intro x o; rw [vocab_iff, vocab_iff, hnum, ht, ht]
  have hload : ∀ s, Loaded L s ↔ Loaded L' s := by intro s; unfold Loaded; simp only [ht]
  refine ⟨?_, ?_, ?_, ?_, ?_, ?_, ht⟩
  · intro x o; rw [a2, b2, hv]
  · funext x
    apply Option.ext
    intro i
    rw [hf.info, hf'.info, hv]
  · intro s p; rw [a3, b3, freshParent_iff, freshParent_iff, hnum, ht]
  · intro s c; rw [a5, b5, ht]
  · funext s
    apply Option.ext
    intro a
    rw [a4, b4, hload]
  · funext k
    apply Option.ext
    intro x
    cases k with
    | bin s => rw [hc.bin, hc'.bin, hload]
    | un s => rw [hc.un, hc'.un, hload]

theorem loadAll_reach {b n} : ∀ (names : List String) {L L'}, TReach b L → loadAll n L names = some (L', none) → TReach b L' := by
  intro names
  induction names with
  | nil => intro L L' h hl; cases hl; exact h
  | cons s names ih =>
    intro L L' h hl
    simp only [loadAll] at hl
    cases hs : loadTheoryNamed n L s with
    | none => simp [hs] at hl
    | some q =>
      obtain ⟨L1, e1⟩ := q
      cases e1 with
      | some e => simp only [hs] at hl; cases hl
      | none =>
        simp only [hs] at hl
        exact ih (.step L (.loadNamed s) n L1 none h trivial hs (fun _ => .inr (.inl rfl))) hl

/-- Languages made by `language` are among those of C73. -/
theorem makeLanguage_reach {b n names L} (h : makeLanguage n names = some (.ok L)) : TReach b L := by
  unfold makeLanguage at h
  cases hl : loadAll n TLang.init names with
  | none => simp [hl] at h
  | some q =>
    obtain ⟨L, e⟩ := q
    cases e with
    | some e => simp only [hl] at h; cases h
    | none => simp only [hl] at h; cases h; exact loadAll_reach names .init hl

theorem loadTheoryNamed_le {n m L s r} (h : loadTheoryNamed n L s = some r) (hm : n ≤ m) : loadTheoryNamed m L s = some r := by
  unfold loadTheoryNamed at h ⊢
  split
  · rename_i ho; simpa [ho] using h
  · rename_i t ho
    simp only [ho] at h
    unfold loadTheory at h ⊢
    split
    · rename_i ht; simpa [ht] using h
    · rename_i ht
      rw [if_neg ht] at h
      cases hr : runSteps n L (theorySteps L t) with
      | none => simp [hr] at h
      | some q => rw [runSteps_le hm hr]; simpa [hr] using h

theorem loadAll_le {n m} (hm : n ≤ m) : ∀ (names : List String) {L r}, loadAll n L names = some r → loadAll m L names = some r := by
  intro names
  induction names with
  | nil => intro L r h; exact h
  | cons s names ih =>
    intro L r h
    simp only [loadAll] at h ⊢
    cases hs : loadTheoryNamed n L s with
    | none => simp [hs] at h
    | some q =>
      rw [loadTheoryNamed_le hs hm]
      obtain ⟨L1, e1⟩ := q
      cases e1 with
      | some e => simpa [hs] using h
      | none => simp only [hs] at h ⊢; exact ih h

theorem loadAll_returns : ∀ (names : List String) {L}, TReach false L → ∃ n r, loadAll n L names = some r := by
  intro names
  induction names with
  | nil => intro L _; exact ⟨0, _, rfl⟩
  | cons s names ih =>
    intro L h
    have h1 : ∃ n r, loadTheoryNamed n L s = some r := by
      unfold loadTheoryNamed
      cases ho : Theory.ofString s with
      | none => exact ⟨0, _, rfl⟩
      | some t => exact C74_returns h t
    obtain ⟨n, ⟨L1, e1⟩, hn⟩ := h1
    cases e1 with
    | some e => exact ⟨n, (L1, some e), by simp only [loadAll, hn]⟩
    | none =>
      obtain ⟨m, r, hm⟩ := ih (.step L (.loadNamed s) n L1 none h trivial hn (by simp))
      refine ⟨max n m, r, ?_⟩
      simp only [loadAll, loadTheoryNamed_le hn (Nat.le_max_left n m)]
      exact loadAll_le (Nat.le_max_right n m) names hm

/-- C74: `language` returns for every list of names. -/
theorem C74_language_returns (names : List String) : ∃ n r, makeLanguage n names = some r := by
  obtain ⟨n, ⟨L, e⟩, h⟩ := loadAll_returns names (L := TLang.init) .init
  refine ⟨n, ?_⟩
  unfold makeLanguage
  rw [h]
  cases e with
  | none => exact ⟨_, rfl⟩
  | some e => exact ⟨_, rfl⟩

/-- C74: `fstrips.language()` loads equality and nothing else. -/
theorem C74_fstrips_default {n L} (h : fstripsLanguage n none = some (.ok L)) : ∀ t, t ∈ L.theories ↔ t = .equality := by
  intro t
  have := (C74_language_contents (show makeLanguage n ["equality"] = some (.ok L) from h)).1 t
  rw [this]
  simp [Theory.ofString, eq_comm]

/-- C74: loading a theory adds no constant to the domain of a sort that was there, except `True` and `False` to the
domain of `object` for the theory of booleans. -/
theorem C74_domains {L} (h : TReach true L) {n t L'} (hl : loadTheory n L t = some (L', none)) (s : String)
    (hs : (L.base.sorts s).isSome) (c : String) :
    c ∈ L'.base.dom s ↔ c ∈ L.base.dom s ∨ t = .boolean ∧ (c = "True" ∨ c = "False") ∧ Star L'.base.ParentOf "Boolean" s ∧ ¬ L.base.isInterval s := by
  have hi := cleanInv_reach h
  have hr := hi.reach
  have ht : t ∉ L.theories := by intro ht; rw [C74_duplicate L t ht] at hl; cases hl
  obtain ⟨_, ha, hr', _, _⟩ := (load_outcome hi ht hl).2 rfl
  have hk := (load_keeps h hl).1
  have hn := nameInv_reach hr
  have hn' := nameInv_reach hr'
  have hint : ∀ x, (L.base.sorts x).isSome → (L'.base.isInterval x ↔ L.base.isInterval x) := by
    intro x hx
    obtain ⟨i, hi⟩ := Option.isSome_iff_exists.mp hx
    unfold Lang.isInterval
    rw [hi, hk.sorts x i hi]
  have hcon : ∀ s', L'.base.consts c = some s' ↔ L.base.consts c = some s' ∨ t = .boolean ∧ (c = "True" ∨ c = "False") ∧ s' = "Boolean" := by
    intro s'
    rw [hn'.const, hn.const, ha.idx]
    have h1 : (c, LObj.const c s') ∉ numNew L.base t := by
      unfold numNew; split <;> simp
    simp only [List.mem_append, h1, false_or]
    cases t <;> simp [ownNew]
    grind
  rw [(domInv_reach hr').dom c s, (domInv_reach hr).dom c s]
  constructor
  · rintro ⟨s', h1, h2, h3, h4⟩
    rcases (hcon s').mp h1 with h1 | ⟨rfl, h5, rfl⟩
    · have hs' := (domInv_reach hr).constReg _ _ h1
      exact .inl ⟨s', h1, fun h => h2 ((hint s' hs').mpr h), fun h => h3 ((hint s hs).mpr h), (star_keeps hr hk hs').mp h4⟩
    · exact .inr ⟨rfl, h5, h4, fun h => h3 ((hint s hs).mpr h)⟩
  · rintro (⟨s', h1, h2, h3, h4⟩ | ⟨rfl, h5, h4, h3⟩)
    · have hs' := (domInv_reach hr).constReg _ _ h1
      exact ⟨s', (hcon s').mpr (.inl h1), fun h => h2 ((hint s' hs').mp h), fun h => h3 ((hint s hs).mp h), (star_keeps hr hk hs').mpr h4⟩
    · refine ⟨"Boolean", (hcon _).mpr (.inr ⟨rfl, h5, rfl⟩), ?_, fun h => h3 ((hint s hs).mp h), h4⟩
      rintro ⟨i, h6, h7⟩
      have : (L'.base.sorts "Boolean") = some ⟨false, false⟩ := ha.new_sort (by simp [ownInfo])
      rw [this] at h6; cases h6; cases h7

/-! ### Counterexamples and examples -/

/-- A language with a given list of theories. -/
def demoTheories (names : List String) : TLang :=
  match makeLanguage 8 names with
  | some (.ok L) => L
  | _ => TLang.init

theorem demo_full : makeLanguage 8 ["equality", "arithmetic", "boolean"] = some (.ok (demoTheories ["equality", "arithmetic", "boolean"])) := by
  rfl

/-- C73: the full statement about unary operators does not hold: `sqrt` of a real number, with arithmetic loaded. -/
theorem C73_unary_refuted : ¬ C73_unary_full := by
  intro h
  obtain ⟨n, hn⟩ := h (α := Unit) _ (makeLanguage_reach (b := true) demo_full) (.fn .sqrt) ⟨(), "Real"⟩
    ⟨.arithmetic, by rw [(C74_language_contents demo_full).1]; exact ⟨"arithmetic", by simp, rfl⟩, rfl⟩ rfl (.refl _)
  rw [C73_unary_raises (makeLanguage_reach demo_full) _ _
    ⟨.arithmetic, by rw [(C74_language_contents demo_full).1]; exact ⟨"arithmetic", by simp, rfl⟩, rfl⟩ rfl] at hn
  cases hn

/-- C74, atomicity in full: a call that raises leaves the language unchanged. -/
def C74_atomic_full : Prop := ∀ L, TReach false L → ∀ n t L' e, loadTheory n L t = some (L', some e) → L' = L

/-- A language whose user has declared a sort called `Integer`. -/
def ownInteger : TLang :=
  match tstep 8 TLang.init (.decl (.sort "Integer" "object")) with
  | some (L, _) => L
  | none => TLang.init

theorem ownInteger_reach (b : Bool) : TReach b ownInteger :=
  .step TLang.init (.decl (.sort "Integer" "object")) 8 ownInteger none .init ⟨trivial, by intro s p h; cases h⟩ rfl
    (fun _ => .inl ⟨_, rfl⟩)

/-- That language after an attempt to load arithmetic. -/
def ownIntegerAfter : TLang :=
  match loadTheory 8 ownInteger .arithmetic with
  | some (L, _) => L
  | none => TLang.init

theorem ownInteger_load : loadTheory 8 ownInteger .arithmetic = some (ownIntegerAfter, some .undefinedVariable) := by rfl

/-- C74: loading is not atomic. After a failed attempt to load arithmetic the function `ite` is declared and an operator
of the theory has a handler, without its function symbol; and a second attempt fails for another reason. -/
theorem C74_atomic_refuted : ¬ C74_atomic_full ∧
    Unused ownInteger "ite" ∧ Declared ownIntegerAfter.base "ite" (.func "ite" ["object", "object", "object"]) ∧
    (ownIntegerAfter.ops (.bin (.fn .matmul))).isSome ∧ ownIntegerAfter.bsyms (.fn .matmul) = none ∧
    (loadTheory 8 ownIntegerAfter .arithmetic).map (·.2) = some (some .duplicateVariable) := by
  have h1 : ownInteger.base.index "ite" = none := by decide
  have h2 : Declared ownIntegerAfter.base "ite" (.func "ite" ["object", "object", "object"]) := .func _ _ (by decide)
  have h0 : Unused ownInteger "ite" := (unused_iff (reach_base (ownInteger_reach true)) "ite").mpr h1
  refine ⟨?_, h0, h2, by decide, by decide, by decide⟩
  intro h
  have := h _ (ownInteger_reach false) _ _ _ _ ownInteger_load
  rw [this] at h2
  exact h0 _ h2

/-- Hypotheses of `C73_operator`: `x + y` on an integer and a real. -/
example : TReach true (demoTheories ["equality", "arithmetic", "boolean"]) := makeLanguage_reach demo_full
example : dispatchOp 8 (demoTheories ["equality", "arithmetic", "boolean"]) (.fn .add) ⟨'x', "Integer"⟩ ⟨'y', "Real"⟩ =
    some (.ok (.term .add ['x', 'y'])) := by rfl
example : dispatchOp 8 (demoTheories ["equality", "arithmetic", "boolean"]) (.pred .lt) ⟨'x', "Boolean"⟩ ⟨'y', "Real"⟩ =
    some (.error .sortMismatch) := by rfl
example : dispatchOp 8 (demoTheories ["equality"]) (.pred .lt) ⟨'x', "object"⟩ ⟨'y', "object"⟩ = some (.error .language) := by rfl
example : applyBuiltin 8 (demoTheories ["arithmetic"]) .sqrt [⟨'x', "Natural"⟩] = some (.ok (.term .sqrt ['x'])) := by rfl
/-- Hypotheses of `C74_load_iff`: special functions on top of arithmetic; arithmetic where `ite` is taken. -/
example : Loadable (demoTheories ["arithmetic"]) .special := by
  refine ⟨by simp, by simp, fun _ => .inl ?_⟩
  constructor <;> decide
example : ¬ Loadable ownInteger .arithmetic := by
  rintro ⟨_, _, h⟩
  rcases h (.inl rfl) with ⟨_, h⟩ | ⟨_, h, _⟩
  · exact absurd h (by decide)
  · exact h _ (.sort "Integer" (by decide))
/-- Hypotheses of `C74_order`. -/
example : (match makeLanguage 8 ["boolean", "arithmetic", "equality"] with | some (.ok _) => true | _ => false) = true := by rfl
example : (match makeLanguage 8 ["boolean", "boolean"] with | some (.error .language) => true | _ => false) = true := by rfl
example : (match makeLanguage 8 ["booleans"] with | some (.error .value) => true | _ => false) = true := by rfl

end Tarski

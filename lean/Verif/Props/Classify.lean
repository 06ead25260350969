import Mathlib.Tactic.Common
import Verif.Classify
import Verif.Props.Nodes
import Verif.Props.Conflicts
/-! C59: literals of a conjunction. C60: STRIPS operators and problems are recognised. -/
namespace Tarski

/-! ### Specification -/

/-- An atom. -/
def IsAtomic (f : Formula) : Prop := ∃ p ts, f = .atom p ts

/-- An atom or the negation of an atom. -/
def IsLit (f : Formula) : Prop := IsAtomic f ∨ ∃ k p ts, f = .comp k .not [.atom p ts]

/-- Built by conjunctions from formulas of a certain kind. -/
inductive ConjOf (P : Formula → Prop) : Formula → Prop
  | base {f} : P f → ConjOf P f
  | and {k fs} : (∀ f ∈ fs, ConjOf P f) → ConjOf P (.comp k .and fs)

/-- The atom `a` occurs as a conjunct, positively or negatively. -/
inductive Conjunct (a : Formula) : Bool → Formula → Prop
  | pos : IsAtomic a → Conjunct a true a
  | neg {k} : IsAtomic a → Conjunct a false (.comp k .not [a])
  | and {k fs f b} : f ∈ fs → Conjunct a b f → Conjunct a b (.comp k .and fs)

/-! ### Lemmas -/

theorem wf_not {k fs} (h : WF (.comp k .not fs)) : ∃ g, fs = [g] := by
  cases h with
  | not => exact ⟨_, rfl⟩
  | andor _ _ _ h => exact absurd rfl h

theorem wf_sub {k c fs} (h : WF (.comp k c fs)) : ∀ f ∈ fs, WF f := by
  cases h <;> simp_all

mutual
theorem collectLitsGo_spec (f : Formula) (hw : WF f) (acc : List (Formula × Bool)) (hn : acc.Nodup) :
    ((collectLitsGo f acc).2 = true ↔ ConjOf IsLit f) ∧ (collectLitsGo f acc).1.Nodup ∧
    ((collectLitsGo f acc).2 = true → ∀ a b, (a, b) ∈ (collectLitsGo f acc).1 ↔ (a, b) ∈ acc ∨ Conjunct a b f) := by
  match f with
  | .top =>
    refine ⟨⟨fun h => by simp [collectLitsGo] at h, fun h => ?_⟩, hn, fun h => by simp [collectLitsGo] at h⟩
    cases h with
    | base h => rcases h with ⟨_, _, h⟩ | ⟨_, _, _, h⟩ <;> cases h
  | .bot =>
    refine ⟨⟨fun h => by simp [collectLitsGo] at h, fun h => ?_⟩, hn, fun h => by simp [collectLitsGo] at h⟩
    cases h with
    | base h => rcases h with ⟨_, _, h⟩ | ⟨_, _, _, h⟩ <;> cases h
  | .quant q vs g =>
    refine ⟨⟨fun h => by simp [collectLitsGo] at h, fun h => ?_⟩, hn, fun h => by simp [collectLitsGo] at h⟩
    cases h with
    | base h => rcases h with ⟨_, _, h⟩ | ⟨_, _, _, h⟩ <;> cases h
  | .comp k .or fs =>
    refine ⟨⟨fun h => by simp [collectLitsGo] at h, fun h => ?_⟩, by simpa [collectLitsGo] using hn, fun h => by simp [collectLitsGo] at h⟩
    cases h with
    | base h => rcases h with ⟨_, _, h⟩ | ⟨_, _, _, h⟩ <;> cases h
  | .atom p ts =>
    simp only [collectLitsGo, true_iff, mem_setAdd]
    refine ⟨.base (.inl ⟨p, ts, rfl⟩), nodup_setAdd hn, fun _ a b => ?_⟩
    constructor
    · rintro (h | h)
      · cases h; exact .inr (.pos ⟨p, ts, rfl⟩)
      · exact .inl h
    · rintro (h | h)
      · exact .inr h
      · cases h; exact .inl rfl
  | .comp k .and fs =>
    obtain ⟨h1, h2, h3⟩ := collectLitsAll_spec fs (wf_sub hw) acc hn
    simp only [collectLitsGo]
    refine ⟨h1.trans ⟨fun h => .and h, fun h => ?_⟩, h2, fun hh a b => (h3 hh a b).trans (or_congr_right ⟨?_, ?_⟩)⟩
    · cases h with
      | base h => rcases h with ⟨_, _, h⟩ | ⟨_, _, _, h⟩ <;> cases h
      | and h => exact h
    · rintro ⟨f, hf, hc⟩; exact .and hf hc
    · intro h
      cases h with
      | pos h => rcases h with ⟨_, _, h⟩; cases h
      | and hf hc => exact ⟨_, hf, hc⟩
  | .comp k .not fs =>
    obtain ⟨g, rfl⟩ := wf_not hw
    cases g with
    | atom p ts =>
      simp only [collectLitsGo, true_iff, mem_setAdd]
      refine ⟨.base (.inr ⟨k, p, ts, rfl⟩), nodup_setAdd hn, fun _ a b => ?_⟩
      constructor
      · rintro (h | h)
        · cases h; exact .inr (.neg ⟨p, ts, rfl⟩)
        · exact .inl h
      · rintro (h | h)
        · exact .inr h
        · cases h with
          | pos h => rcases h with ⟨_, _, h⟩; cases h
          | neg h => exact .inl rfl
    | _ =>
      refine ⟨⟨fun h => by simp [collectLitsGo] at h, fun h => ?_⟩, by simpa [collectLitsGo] using hn, fun h => by simp [collectLitsGo] at h⟩
      cases h with
      | base h => rcases h with ⟨_, _, h⟩ | ⟨_, _, _, h⟩ <;> cases h
theorem collectLitsAll_spec (fs : List Formula) (hw : ∀ f ∈ fs, WF f) (acc : List (Formula × Bool)) (hn : acc.Nodup) :
    ((collectLitsAll fs acc).2 = true ↔ ∀ f ∈ fs, ConjOf IsLit f) ∧ (collectLitsAll fs acc).1.Nodup ∧
    ((collectLitsAll fs acc).2 = true → ∀ a b, (a, b) ∈ (collectLitsAll fs acc).1 ↔ (a, b) ∈ acc ∨ ∃ f ∈ fs, Conjunct a b f) := by
  match fs with
  | [] => simp [collectLitsAll, hn]
  | f :: fs =>
    obtain ⟨h1, h2, h3⟩ := collectLitsGo_spec f (hw f (by simp)) acc hn
    simp only [collectLitsAll]
    cases he : collectLitsGo f acc with
    | mk acc' r =>
      rw [he] at h1 h2 h3
      simp only at h1 h2 h3
      cases r with
      | false =>
        simp only [Bool.false_eq_true, false_iff] at h1
        simp only [Bool.false_eq_true, false_iff, false_imp_iff, and_true]
        exact ⟨fun h => h1 (h f (by simp)), h2⟩
      | true =>
        obtain ⟨g1, g2, g3⟩ := collectLitsAll_spec fs (fun g hg => hw g (by simp [hg])) acc' h2
        simp only [true_iff] at h1
        refine ⟨by simp [g1, h1], g2, fun hh a b => ?_⟩
        rw [g3 hh a b, h3 rfl a b]
        simp only [List.mem_cons, exists_eq_or_imp, or_assoc]
end

/-! ### C59 -/

/-- C59: `collect_literals_from_conjunction` returns a set exactly for the conjunctions of literals. -/
theorem C59_returns (f : Formula) (hw : WF f) : (collectLits f).isSome = true ↔ ConjOf IsLit f := by
  rw [← (collectLitsGo_spec f hw [] List.nodup_nil).1]
  simp only [collectLits]
  cases he : collectLitsGo f [] with
  | mk s r => cases r <;> simp

/-- C59: the set consists of the conjuncts of the formula with their polarities. -/
theorem C59_exact (f : Formula) (hw : WF f) (s : List (Formula × Bool)) (h : collectLits f = some s) :
    s.Nodup ∧ ∀ a b, (a, b) ∈ s ↔ Conjunct a b f := by
  obtain ⟨-, h2, h3⟩ := collectLitsGo_spec f hw [] List.nodup_nil
  simp only [collectLits] at h
  cases he : collectLitsGo f [] with
  | mk s' r =>
    rw [he] at h h2 h3
    cases r with
    | false => cases h
    | true =>
      simp only [Option.some.injEq] at h
      subst h
      refine ⟨h2, fun a b => ?_⟩
      simpa using h3 rfl a b

theorem conj_sat {D} (I : Interp D) (σ : Asg D) {f : Formula} (hw : WF f) (hc : ConjOf IsLit f) :
    Sat I f σ ↔ ∀ a b, Conjunct a b f → (Sat I a σ ↔ b = true) := by
  induction hc with
  | base h =>
    rename_i f
    rcases h with ⟨p, ts, rfl⟩ | ⟨k, p, ts, rfl⟩
    · constructor
      · intro h a b hc
        cases hc with
        | pos => simp [h]
      · intro h
        simpa using h _ _ (.pos ⟨p, ts, rfl⟩)
    · constructor
      · intro h a b hc
        cases hc with
        | pos hp => obtain ⟨_, _, hp⟩ := hp; cases hp
        | neg => simpa [Sat, SatAll] using h
      · intro h
        simpa [Sat, SatAll] using h _ _ (.neg ⟨p, ts, rfl⟩)
  | and h ih =>
    rename_i k fs
    simp only [Sat, satAll_iff]
    constructor
    · intro hs a b hc
      cases hc with
      | pos hp => obtain ⟨_, _, hp⟩ := hp; cases hp
      | and hf hc => exact (ih _ hf (wf_sub hw _ hf)).1 (hs _ hf) a b hc
    · intro hs f hf
      exact (ih f hf (wf_sub hw f hf)).2 (fun a b hc => hs a b (.and hf hc))

/-- C59: the formula is true iff the atoms with positive polarity are true and those with negative polarity are false. -/
theorem C59_meaning (f : Formula) (hw : WF f) (s : List (Formula × Bool)) (h : collectLits f = some s) {D : Type} (I : Interp D)
    (σ : Asg D) : Sat I f σ ↔ ∀ a b, (a, b) ∈ s → (Sat I a σ ↔ b = true) := by
  rw [conj_sat I σ hw ((C59_returns f hw).1 (by simp [h]))]
  simp only [(C59_exact f hw s h).2]

theorem mem_foldl_setAdd {α} [DecidableEq α] {y : α} : ∀ {xs l : List α}, y ∈ xs.foldl setAdd l ↔ y ∈ l ∨ y ∈ xs
  | [], l => by simp
  | x :: xs, l => by
    simp only [List.foldl_cons]
    rw [mem_foldl_setAdd, mem_setAdd, List.mem_cons]
    tauto

theorem classifyLoop_spec : ∀ (ls : List (Formula × Bool)) (o : Occurrences), (∀ x ∈ ls, IsAtomic x.1) →
    (∀ a, a ∈ (classifyLoop ls o).pos ↔ a ∈ o.pos ∨ ∃ p ts, a = .atom (.user p) ts ∧ (a, true) ∈ ls) ∧
    (∀ a, a ∈ (classifyLoop ls o).neg ↔ a ∈ o.neg ∨ ∃ p ts, a = .atom (.user p) ts ∧ (a, false) ∈ ls) ∧
    (∀ n, n ∈ (classifyLoop ls o).fn ↔ n ∈ o.fn ∨ ∃ c ts b, (.atom (.cmp c) ts, b) ∈ ls ∧
      n ∈ (uniqueNodes Node.isApp (.f (.atom (.cmp c) ts))).1)
  | [], o, _ => by simp [classifyLoop]
  | (x, r) :: ls, o, h => by
    obtain ⟨p, ts, hx⟩ := h (x, r) (by simp)
    simp only at hx
    subst hx
    have ht : ∀ y ∈ ls, IsAtomic y.1 := fun y hy => h y (by simp [hy])
    cases p with
    | cmp c =>
      simp only [classifyLoop]
      obtain ⟨h1, h2, h3⟩ := classifyLoop_spec ls
        { o with fn := (uniqueNodes Node.isApp (.f (.atom (.cmp c) ts))).1.foldl setAdd o.fn } ht
      refine ⟨fun a => ?_, fun a => ?_, fun n => ?_⟩
      · rw [h1]; simp only [List.mem_cons, Prod.mk.injEq]; grind
      · rw [h2]; simp only [List.mem_cons, Prod.mk.injEq]; grind
      · rw [h3]; simp only [mem_foldl_setAdd, List.mem_cons, Prod.mk.injEq]
        constructor
        · rintro ((hn | hn) | ⟨c', ts', b, hm, hn⟩)
          · exact .inl hn
          · exact .inr ⟨c, ts, r, .inl ⟨rfl, rfl⟩, hn⟩
          · exact .inr ⟨c', ts', b, .inr hm, hn⟩
        · rintro (hn | ⟨c', ts', b, ⟨he, -⟩ | hm, hn⟩)
          · exact .inl (.inl hn)
          · cases he; exact .inl (.inr hn)
          · exact .inr ⟨c', ts', b, hm, hn⟩
    | user q =>
      cases r with
      | true =>
        simp only [classifyLoop]
        obtain ⟨h1, h2, h3⟩ := classifyLoop_spec ls { o with pos := setAdd o.pos (.atom (.user q) ts) } ht
        refine ⟨fun a => ?_, fun a => ?_, fun n => ?_⟩
        · rw [h1]; simp only [mem_setAdd, List.mem_cons, Prod.mk.injEq]
          constructor
          · rintro ((rfl | hn) | ⟨p', ts', rfl, hm⟩)
            · exact .inr ⟨q, ts, rfl, .inl ⟨rfl, trivial⟩⟩
            · exact .inl hn
            · exact .inr ⟨p', ts', rfl, .inr hm⟩
          · rintro (hn | ⟨p', ts', rfl, ⟨he, -⟩ | hm⟩)
            · exact .inl (.inr hn)
            · exact .inl (.inl he)
            · exact .inr ⟨p', ts', rfl, hm⟩
        · rw [h2]; simp only [List.mem_cons, Prod.mk.injEq]; grind
        · rw [h3]; simp only [List.mem_cons, Prod.mk.injEq]; grind
      | false =>
        simp only [classifyLoop]
        obtain ⟨h1, h2, h3⟩ := classifyLoop_spec ls { o with neg := setAdd o.neg (.atom (.user q) ts) } ht
        refine ⟨fun a => ?_, fun a => ?_, fun n => ?_⟩
        · rw [h1]; simp only [List.mem_cons, Prod.mk.injEq]; grind
        · rw [h2]; simp only [mem_setAdd, List.mem_cons, Prod.mk.injEq]
          constructor
          · rintro ((rfl | hn) | ⟨p', ts', rfl, hm⟩)
            · exact .inr ⟨q, ts, rfl, .inl ⟨rfl, trivial⟩⟩
            · exact .inl hn
            · exact .inr ⟨p', ts', rfl, .inr hm⟩
          · rintro (hn | ⟨p', ts', rfl, ⟨he, -⟩ | hm⟩)
            · exact .inl (.inr hn)
            · exact .inl (.inl he)
            · exact .inr ⟨p', ts', rfl, hm⟩
        · rw [h3]; simp only [List.mem_cons, Prod.mk.injEq]; grind

theorem conjunct_atomic {a b f} (h : Conjunct a b f) : IsAtomic a := by
  induction h with
  | pos h => exact h
  | neg h => exact h
  | and _ _ ih => exact ih

/-- C59: `classify_atom_occurrences_in_formula` fails exactly on formulas that are not conjunctions of literals; otherwise it
returns the atoms of user predicates that are positive and negative conjuncts, and the function applications that occur in
the comparisons among the conjuncts. -/
theorem C59_classify (f : Formula) (hw : WF f) :
    (¬ ConjOf IsLit f → classifyAtoms f = .error .typeError) ∧
    (ConjOf IsLit f → ∃ o, classifyAtoms f = .ok o ∧
      (∀ a, a ∈ o.pos ↔ Conjunct a true f ∧ ∃ p ts, a = .atom (.user p) ts) ∧
      (∀ a, a ∈ o.neg ↔ Conjunct a false f ∧ ∃ p ts, a = .atom (.user p) ts) ∧
      (∀ n, n ∈ o.fn ↔ n.isApp = true ∧ ∃ c ts b m, Conjunct (.atom (.cmp c) ts) b f ∧ Occurs m (.f (.atom (.cmp c) ts)) ∧ n = m.walk)) := by
  constructor
  · intro h
    rw [← C59_returns f hw] at h
    simp only [Bool.not_eq_true, Option.isSome_eq_false_iff, Option.isNone_iff_eq_none] at h
    simp only [classifyAtoms, h]
  · intro h
    obtain ⟨s, hs⟩ := Option.isSome_iff_exists.1 ((C59_returns f hw).2 h)
    obtain ⟨-, he⟩ := C59_exact f hw s hs
    obtain ⟨h1, h2, h3⟩ := classifyLoop_spec s ⟨[], [], []⟩ (fun x hx => conjunct_atomic ((he x.1 x.2).1 hx))
    refine ⟨classifyLoop s ⟨[], [], []⟩, by simp only [classifyAtoms, hs], fun a => ?_, fun a => ?_, fun n => ?_⟩
    · rw [h1, ← he]; simp only [List.not_mem_nil, false_or]; grind
    · rw [h2, ← he]; simp only [List.not_mem_nil, false_or]; grind
    · rw [h3]
      simp only [List.not_mem_nil, false_or, he, (C57_nodes Node.isApp _).2]
      constructor
      · rintro ⟨c, ts, b, hc, hn, m, hm, rfl⟩; exact ⟨hn, c, ts, b, m, hc, hm, rfl⟩
      · rintro ⟨hn, c, ts, b, m, hc, hm, rfl⟩; exact ⟨c, ts, b, hc, hn, m, hm, rfl⟩

/-- `p(x) and (not q(x) and f(x) = c)` -/
def exConj : Formula :=
  land [.atom (.user "p") [.var ⟨"x", "object"⟩], neg (.atom (.user "q") [.var ⟨"x", "object"⟩]),
    .atom (.cmp .eq) [.app "f" [.var ⟨"x", "object"⟩], .const (.str "c") "object"]]

theorem exConj_wf : WF exConj := (C11_wf _ _ (by
  intro f hf
  simp only [List.mem_cons, List.not_mem_nil, or_false] at hf
  rcases hf with rfl | rfl | rfl
  · exact .atom _ _
  · exact .not _ _ (.atom _ _)
  · exact .atom _ _)).1

example : WF exConj ∧ ConjOf IsLit exConj ∧ ∃ o, classifyAtoms exConj = .ok o ∧ o.pos.length = 1 ∧ o.neg.length = 1 ∧ o.fn.length = 1 :=
  ⟨exConj_wf, (C59_returns _ exConj_wf).1 rfl, _, rfl, rfl, rfl, rfl⟩

/-! ### C60 -/

/-- A formula of the given kind, a conjunction of such formulas, or true (the empty conjunction). -/
def Conjunction (P : Formula → Prop) (f : Formula) : Prop := f = .top ∨ ConjOf P f

/-- The full statement of C60: the tests hold exactly for the conjunctions of literals and of atoms. -/
def C60_full : Prop := ∀ f, WF f → (isConjLiterals f = true ↔ Conjunction IsLit f) ∧ (isConjAtoms f = true ↔ Conjunction IsAtomic f)

theorem isLiteral_iff {f : Formula} (hw : WF f) : isLiteral f = true ↔ IsLit f := by
  cases f with
  | top => simp [isLiteral, IsLit, IsAtomic]
  | bot => simp [isLiteral, IsLit, IsAtomic]
  | atom p ts => simp [isLiteral, IsLit, IsAtomic]
  | quant q vs f => simp [isLiteral, IsLit, IsAtomic]
  | comp k c fs =>
    cases c with
    | and => simp [isLiteral, IsLit, IsAtomic]
    | or => simp [isLiteral, IsLit, IsAtomic]
    | not =>
      obtain ⟨g, rfl⟩ := wf_not hw
      cases g <;> simp [isLiteral, IsLit, IsAtomic]

theorem isAtom_iff {f : Formula} : isAtom f = true ↔ IsAtomic f := by
  cases f <;> simp [isAtom, IsAtomic]

mutual
theorem flattenAux_conj {P : Formula → Prop} (hP : ∀ k fs, ¬ P (.comp k .and fs)) (f : Formula) :
    (∀ g ∈ flattenAux .and f, P g) ↔ ConjOf P f := by
  match f with
  | .comp k .and fs =>
    simp only [flattenAux, if_true]
    rw [flattenAuxs_conj hP fs]
    constructor
    · exact fun h => .and h
    · intro h
      cases h with
      | base h => exact absurd h (hP k fs)
      | and h => exact h
  | .comp k .or fs =>
    simp only [flattenAux, reduceCtorEq, if_false, List.mem_singleton, forall_eq]
    exact ⟨.base, fun h => by cases h with | base h => exact h⟩
  | .comp k .not fs =>
    simp only [flattenAux, reduceCtorEq, if_false, List.mem_singleton, forall_eq]
    exact ⟨.base, fun h => by cases h with | base h => exact h⟩
  | .top =>
    simp only [flattenAux, List.mem_singleton, forall_eq]
    exact ⟨.base, fun h => by cases h with | base h => exact h⟩
  | .bot =>
    simp only [flattenAux, List.mem_singleton, forall_eq]
    exact ⟨.base, fun h => by cases h with | base h => exact h⟩
  | .atom p ts =>
    simp only [flattenAux, List.mem_singleton, forall_eq]
    exact ⟨.base, fun h => by cases h with | base h => exact h⟩
  | .quant q vs f =>
    simp only [flattenAux, List.mem_singleton, forall_eq]
    exact ⟨.base, fun h => by cases h with | base h => exact h⟩
theorem flattenAuxs_conj {P : Formula → Prop} (hP : ∀ k fs, ¬ P (.comp k .and fs)) (fs : List Formula) :
    (∀ g ∈ flattenAuxs .and fs, P g) ↔ ∀ f ∈ fs, ConjOf P f := by
  match fs with
  | [] => simp [flattenAuxs]
  | f :: fs =>
    simp only [flattenAuxs, List.forall_mem_append, List.forall_mem_cons, flattenAux_conj hP f, flattenAuxs_conj hP fs]
end

mutual
theorem flattenAux_wf (f : Formula) (hw : WF f) : ∀ g ∈ flattenAux .and f, WF g := by
  match f with
  | .comp k .and fs =>
    simp only [flattenAux, if_true]
    exact flattenAuxs_wf fs (wf_sub hw)
  | .comp k .or fs => simpa [flattenAux] using hw
  | .comp k .not fs => simpa [flattenAux] using hw
  | .top => simpa [flattenAux] using hw
  | .bot => simpa [flattenAux] using hw
  | .atom p ts => simpa [flattenAux] using hw
  | .quant q vs f => simpa [flattenAux] using hw
theorem flattenAuxs_wf (fs : List Formula) (hw : ∀ f ∈ fs, WF f) : ∀ g ∈ flattenAuxs .and fs, WF g := by
  match fs with
  | [] => simp [flattenAuxs]
  | f :: fs =>
    simp only [flattenAuxs, List.forall_mem_append]
    exact ⟨flattenAux_wf f (hw f (by simp)), flattenAuxs_wf fs (fun g hg => hw g (by simp [hg]))⟩
end

/-- C60, proved part: for a formula that is not true, not a disjunction and not the negation of anything but an atom,
`is_conjunction_of_literals` holds exactly for the conjunctions of literals; see the theorems below for the others. -/
theorem C60_literals_partial (f : Formula) (hw : WF f) (ht : f ≠ .top) (ho : ∀ k fs, f ≠ .comp k .or fs)
    (hn : ∀ k g, f = .comp k .not [g] → IsAtomic g) : isConjLiterals f = true ↔ Conjunction IsLit f := by
  simp only [Conjunction, ht, false_or]
  match f with
  | .top => exact absurd rfl ht
  | .bot => exact ⟨(fun h => nomatch h), fun h => by cases h with | base h => rcases h with ⟨_, _, h⟩ | ⟨_, _, _, h⟩ <;> cases h⟩
  | .atom p ts => exact ⟨fun _ => .base (.inl ⟨p, ts, rfl⟩), fun _ => rfl⟩
  | .quant q vs g =>
    exact ⟨(fun h => nomatch h), fun h => by cases h with | base h => rcases h with ⟨_, _, h⟩ | ⟨_, _, _, h⟩ <;> cases h⟩
  | .comp k .or fs => exact absurd rfl (ho k fs)
  | .comp k .not fs =>
    obtain ⟨g, rfl⟩ := wf_not hw
    obtain ⟨p, ts, rfl⟩ := hn k g rfl
    exact ⟨fun _ => .base (.inr ⟨k, p, ts, rfl⟩), fun _ => rfl⟩
  | .comp k .and fs =>
    simp only [isConjLiterals, flatten, atomOrAll, List.all_eq_true]
    rw [← flattenAux_conj (P := IsLit) (by simp [IsLit, IsAtomic])]
    constructor
    · exact fun h g hg => (isLiteral_iff (flattenAux_wf _ hw g hg)).1 (h g hg)
    · exact fun h g hg => (isLiteral_iff (flattenAux_wf _ hw g hg)).2 (h g hg)

/-- C60, proved part: for a formula that is not true, not a disjunction and not a negation,
`is_conjunction_of_positive_atoms` holds exactly for the conjunctions of atoms; see the theorems below for the others. -/
theorem C60_atoms_partial (f : Formula) (ht : f ≠ .top) (ho : ∀ k fs, f ≠ .comp k .or fs)
    (hn : ∀ k fs, f ≠ .comp k .not fs) : isConjAtoms f = true ↔ Conjunction IsAtomic f := by
  simp only [Conjunction, ht, false_or]
  match f with
  | .top => exact absurd rfl ht
  | .bot => exact ⟨(fun h => nomatch h), fun h => by cases h with | base h => rcases h with ⟨_, _, h⟩; cases h⟩
  | .atom p ts => exact ⟨fun _ => .base ⟨p, ts, rfl⟩, fun _ => rfl⟩
  | .quant q vs g =>
    exact ⟨(fun h => nomatch h), fun h => by cases h with | base h => rcases h with ⟨_, _, h⟩; cases h⟩
  | .comp k .or fs => exact absurd rfl (ho k fs)
  | .comp k .not fs => exact absurd rfl (hn k fs)
  | .comp k .and fs =>
    simp only [isConjAtoms, flatten, atomOrAll, List.all_eq_true, isAtom_iff]
    exact flattenAux_conj (by simp [IsAtomic]) _

/-- A STRIPS operator: the precondition is a conjunction of atoms, the effects are unconditional adds and deletes, and no
atom is both added and deleted. -/
def PureStrips (a : Operator) : Prop :=
  Conjunction IsAtomic a.pre ∧ UnconditionalAddDel a.effs ∧ ¬ ∃ x, AddsAtom a.effs x ∧ DelsAtom a.effs x

/-- The precondition or goal is not true, not a disjunction and not a negation. -/
def TameF (f : Formula) : Prop := f ≠ .top ∧ (∀ k fs, f ≠ .comp k .or fs) ∧ ∀ k fs, f ≠ .comp k .not fs

/-- C60, proved part: for problems whose goal and preconditions are not true, no disjunctions and no negations,
`is_strips_problem` holds exactly for STRIPS problems. -/
theorem C60_strips_partial (goal : Formula) (as : List Operator) (hg : TameF goal) (ha : ∀ a ∈ as, TameF a.pre) :
    isStripsProblem goal as = true ↔ Conjunction IsAtomic goal ∧ ∀ a ∈ as, PureStrips a := by
  simp only [isStripsProblem, Bool.and_eq_true, List.all_eq_true, C60_atoms_partial goal hg.1 hg.2.1 hg.2.2]
  refine and_congr_right fun _ => forall_congr' fun a => forall_congr' fun hm => ?_
  simp only [isStripsOperator, Bool.and_eq_true, PureStrips, C33_strips,
    C60_atoms_partial a.pre (ha a hm).1 (ha a hm).2.1 (ha a hm).2.2]

/-- Conjunctions are never rejected, other than true itself. -/
theorem C60_accepts_partial (f : Formula) (hw : WF f) :
    (ConjOf IsLit f → isConjLiterals f = true) ∧ (ConjOf IsAtomic f → isConjAtoms f = true) := by
  constructor
  · intro h
    refine (C60_literals_partial f hw ?_ ?_ ?_).2 (.inr h)
    · rintro rfl; cases h with | base h => rcases h with ⟨_, _, h⟩ | ⟨_, _, _, h⟩ <;> cases h
    · rintro k fs rfl; cases h with | base h => rcases h with ⟨_, _, h⟩ | ⟨_, _, _, h⟩ <;> cases h
    · rintro k g rfl
      cases h with
      | base h =>
        rcases h with ⟨_, _, h⟩ | ⟨_, p, ts, h⟩
        · cases h
        · cases h; exact ⟨p, ts, rfl⟩
  · intro h
    refine (C60_atoms_partial f ?_ ?_ ?_).2 (.inr h)
    · rintro rfl; cases h with | base h => rcases h with ⟨_, _, h⟩; cases h
    · rintro k fs rfl; cases h with | base h => rcases h with ⟨_, _, h⟩; cases h
    · rintro k fs rfl; cases h with | base h => rcases h with ⟨_, _, h⟩; cases h

/-- `p(x) and q(x)`, with the effects add `r(x)` and delete `p(x)`. -/
def exStrips : Operator :=
  ⟨land [.atom (.user "p") [], .atom (.user "q") []], [.add .top (.user "r") [], .del .top (.user "p") []]⟩

example : TameF exStrips.pre ∧ isStripsProblem exStrips.pre [exStrips] = true ∧ Conjunction IsAtomic exStrips.pre ∧ PureStrips exStrips := by
  have ht : TameF exStrips.pre := ⟨by simp [exStrips, land, createCompound, toBinaryTree],
    by simp [exStrips, land, createCompound, toBinaryTree], by simp [exStrips, land, createCompound, toBinaryTree]⟩
  have h : isStripsProblem exStrips.pre [exStrips] = true := by decide
  have h' := (C60_strips_partial exStrips.pre [exStrips] ht (by simpa using ht)).1 h
  exact ⟨ht, h, h'.1, h'.2 _ (by simp)⟩

example : isConjLiterals exConj = true ∧ isConjAtoms exConj = false := ⟨rfl, rfl⟩

/-- A disjunction of atoms counts as a conjunction of literals and of atoms, although `collect_literals_from_conjunction`
finds no conjunction. -/
theorem C60_disjunction_refuted :
    let f := lor [.atom (.user "p") [], .atom (.user "q") []]
    isConjLiterals f = true ∧ isConjAtoms f = true ∧ collectLits f = none ∧ isStripsProblem f [] = true := ⟨rfl, rfl, rfl, rfl⟩

/-- A negated atom counts as a conjunction of positive atoms. -/
theorem C60_negation_refuted : isConjAtoms (neg (.atom (.user "p") [])) = true ∧
    isStripsProblem (neg (.atom (.user "p") [])) [] = true := ⟨rfl, rfl⟩

/-- True, the precondition of an action without precondition, does not count as a conjunction. -/
theorem C60_top_refuted : isConjLiterals .top = false ∧ isConjAtoms .top = false ∧
    isStripsOperator ⟨.top, [.add .top (.user "p") []]⟩ = false := ⟨rfl, rfl, rfl⟩

/-- A double negation counts as a conjunction of literals. -/
theorem C60_double_negation_refuted : isConjLiterals (neg (neg (.atom (.user "p") []))) = true ∧
    collectLits (neg (neg (.atom (.user "p") []))) = none := ⟨rfl, rfl⟩

theorem C60_refuted : ¬ C60_full := by
  intro h
  have := (h .top .top).1.2 (.inl rfl)
  cases this

end Tarski

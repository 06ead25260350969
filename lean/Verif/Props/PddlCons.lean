import Verif.PddlCons
import Verif.Props.TaskPlan
/-! C133: constraints on trajectories in instance files. -/
namespace Tarski

/-! ### Specification -/

/-- A formula of the file that can be read where no variable is in scope. -/
def ReadsAs (L : RLang) (g : SX) : Prop := ∃ f, readF L none g = .ok f

/-- All formulas of a constraint can be read, and the sorts of its variables exist. -/
inductive ConReads (L : RLang) : ConGD → Prop
  | conj (cs) : (∀ c ∈ cs, ConReads L c) → ConReads L (.conj cs)
  | all (vs ws c) : readVarsList L vs = .ok ws → ConReads L c → ConReads L (.all vs c)
  | timed (gs) : (∀ g ∈ gs, ReadsAs L g) → ConReads L (.timed gs)
  | goal (g) : ReadsAs L g → ConReads L (.goal g)

/-- Conjunctions of formulas without keywords, quantified constraints and preferences. -/
inductive OnlyGoals (L : RLang) : PrefCon → Prop
  | conj (cs) : (∀ c ∈ cs, OnlyGoals L c) → OnlyGoals L (.conj cs)
  | plain (cs) : (∀ c ∈ cs, ∃ g, c = .goal g ∧ ReadsAs L g) → OnlyGoals L (.plain cs)

/-- The sections that are read without error: such conjunctions, a single preference, or one of these below quantifiers. -/
inductive SectionReads (L : RLang) : PrefCon → Prop
  | goals (c) : OnlyGoals L c → SectionReads L c
  | pref (c) : ConReads L c → SectionReads L (.pref c)
  | all (vs ws c) : readVarsList L vs = .ok ws → SectionReads L c → SectionReads L (.all vs c)

/-- The section is not one with constraints. -/
def MetaSec.NoCons : MetaSec → Bool
  | .constraints _ => false
  | .other _ => true

/-- The full statement: instances of which the first demands a formula to hold and the second its negation are different problems. -/
def C133_full : Prop := ∀ (P : PDomain) (head : SX) (g : SX) (p q : PProblem),
  readInstanceWith P head [.constraints (.plain [.goal g])] = .ok p →
  readInstanceWith P head [.constraints (.plain [.goal (.list [.tok (.kw .kNot), g])])] = .ok q → p ≠ q

/-! ### Proof -/

theorem readFs_iff (L : RLang) : ∀ gs, (∃ fs, readFs L none gs = .ok fs) ↔ ∀ g ∈ gs, ReadsAs L g
  | [] => by simp [readFs]
  | g :: gs => by
    have ih := readFs_iff L gs
    simp only [List.mem_cons, forall_eq_or_imp]
    rw [← ih]
    simp only [readFs, ReadsAs]
    cases readF L none g with
    | error e => simp
    | ok f => cases readFs L none gs <;> simp

mutual
theorem visitCon_iff (L : RLang) : ∀ c, (∃ r, visitCon L c = .ok r) ↔ ConReads L c
  | .goal g => by
    have h : ConReads L (.goal g) ↔ ReadsAs L g := ⟨fun h => by cases h; assumption, .goal g⟩
    rw [h]
    simp only [visitCon, ReadsAs]
    cases readF L none g <;> simp
  | .timed gs => by
    have h : ConReads L (.timed gs) ↔ ∀ g ∈ gs, ReadsAs L g := ⟨fun h => by cases h; assumption, .timed gs⟩
    rw [h, ← readFs_iff]
    simp only [visitCon]
    cases readFs L none gs <;> simp
  | .conj cs => by
    have h : ConReads L (.conj cs) ↔ ∀ c ∈ cs, ConReads L c := ⟨fun h => by cases h; assumption, .conj cs⟩
    rw [h, ← visitCons_iff]
    simp only [visitCon]
    cases visitCons L cs <;> simp
  | .all vs c => by
    have h : ConReads L (.all vs c) ↔ (∃ ws, readVarsList L vs = .ok ws) ∧ ConReads L c :=
      ⟨fun h => by cases h with | all _ ws _ h1 h2 => exact ⟨⟨ws, h1⟩, h2⟩, fun h => .all vs _ c h.1.choose_spec h.2⟩
    rw [h, ← visitCon_iff L c]
    simp only [visitCon]
    cases readVarsList L vs with
    | error e => simp
    | ok ws => cases visitCon L c <;> simp
theorem visitCons_iff (L : RLang) : ∀ cs, (∃ r, visitCons L cs = .ok r) ↔ ∀ c ∈ cs, ConReads L c
  | [] => by simp [visitCons]
  | c :: cs => by
    simp only [List.mem_cons, forall_eq_or_imp, ← visitCon_iff L c, ← visitCons_iff L cs]
    simp only [visitCons]
    cases visitCon L c with
    | error e => simp
    | ok r => cases visitCons L cs <;> simp
end

theorem visitCon_list {L : RLang} {c : ConGD} {fs : List Formula} (h : visitCon L c = .ok (some fs)) : ∃ g f, c = .goal g ∧ readF L none g = .ok f ∧ fs = [f] := by
  cases c with
  | goal g =>
    simp only [visitCon] at h
    cases hf : readF L none g with
    | error e => simp [hf] at h
    | ok f =>
      simp only [hf, Except.ok.injEq, Option.some.injEq] at h
      exact ⟨g, f, rfl, hf, h.symm⟩
  | timed gs => simp only [visitCon] at h; split at h <;> simp at h
  | conj cs => simp only [visitCon] at h; split at h <;> simp at h
  | all vs c =>
    simp only [visitCon] at h
    split at h
    · simp at h
    · split at h <;> simp at h

theorem extendCons_iff (L : RLang) : ∀ cs, (∃ r, extendCons L cs = .ok r) ↔ ∀ c ∈ cs, ∃ g, c = .goal g ∧ ReadsAs L g
  | [] => by simp [extendCons]
  | c :: cs => by
    simp only [List.mem_cons, forall_eq_or_imp, ← extendCons_iff L cs]
    simp only [extendCons]
    cases h : visitCon L c with
    | error e =>
      simp only [reduceCtorEq, exists_false, false_iff, not_and]
      rintro ⟨g, rfl, f, hf⟩
      simp [visitCon, hf] at h
    | ok r =>
      cases r with
      | none =>
        simp only [reduceCtorEq, exists_false, false_iff, not_and]
        rintro ⟨g, rfl, f, hf⟩
        simp [visitCon, hf] at h
      | some fs =>
        obtain ⟨g, f, rfl, hf, rfl⟩ := visitCon_list h
        have : ∃ g', ConGD.goal g = .goal g' ∧ ReadsAs L g' := ⟨g, rfl, f, hf⟩
        simp only [this, true_and]
        cases extendCons L cs <;> simp

mutual
theorem visitPref_spec (L : RLang) : ∀ c, ((∃ r, visitPref L c = .ok r) ↔ SectionReads L c) ∧ ((∃ fs, visitPref L c = .ok (some fs)) ↔ OnlyGoals L c)
  | .plain cs => by
    have h : OnlyGoals L (.plain cs) ↔ ∃ r, extendCons L cs = .ok r := by
      rw [extendCons_iff]
      exact ⟨fun h => by cases h; assumption, .plain cs⟩
    have h' : SectionReads L (.plain cs) ↔ OnlyGoals L (.plain cs) := ⟨fun h => by cases h; assumption, .goals _⟩
    rw [h', h]
    simp only [visitPref]
    cases extendCons L cs <;> simp
  | .conj cs => by
    have h : OnlyGoals L (.conj cs) ↔ ∃ r, extendPrefs L cs = .ok r := by
      rw [extendPrefs_iff L cs]
      exact ⟨fun h => by cases h; assumption, .conj cs⟩
    have h' : SectionReads L (.conj cs) ↔ OnlyGoals L (.conj cs) := ⟨fun h => by cases h; assumption, .goals _⟩
    rw [h', h]
    simp only [visitPref]
    cases extendPrefs L cs <;> simp
  | .pref c => by
    have h : ¬ OnlyGoals L (.pref c) := fun h => by cases h
    have h' : SectionReads L (.pref c) ↔ ∃ r, visitCon L c = .ok r := by
      rw [visitCon_iff]
      exact ⟨fun h' => by cases h' with | goals _ h' => exact absurd h' h | pref _ h' => exact h', .pref c⟩
    rw [h']
    simp only [h, iff_false, visitPref]
    cases visitCon L c <;> simp
  | .all vs c => by
    have h : ¬ OnlyGoals L (.all vs c) := fun h => by cases h
    have h' : SectionReads L (.all vs c) ↔ (∃ ws, readVarsList L vs = .ok ws) ∧ ∃ r, visitPref L c = .ok r := by
      rw [(visitPref_spec L c).1]
      constructor
      · intro h'
        cases h' with
        | goals _ h' => exact absurd h' h
        | all _ ws _ h1 h2 => exact ⟨⟨ws, h1⟩, h2⟩
      · rintro ⟨⟨ws, h1⟩, h2⟩
        exact .all vs ws c h1 h2
    rw [h']
    simp only [h, iff_false, visitPref]
    cases readVarsList L vs with
    | error e => simp
    | ok ws => cases visitPref L c <;> simp
theorem extendPrefs_iff (L : RLang) : ∀ cs, (∃ r, extendPrefs L cs = .ok r) ↔ ∀ c ∈ cs, OnlyGoals L c
  | [] => by simp [extendPrefs]
  | c :: cs => by
    have h1 := (visitPref_spec L c).2
    simp only [List.mem_cons, forall_eq_or_imp, ← h1, ← extendPrefs_iff L cs]
    simp only [extendPrefs]
    cases visitPref L c with
    | error e => simp
    | ok r =>
      cases r with
      | none => simp
      | some fs => cases extendPrefs L cs <;> simp
end

theorem readSections_forget : ∀ (secs : List MetaSec) (D : PDecls) (m : Option (Bool × Term)) r, readSections D m secs = .ok r →
    readSections D m (secs.filter MetaSec.NoCons) = .ok r
  | [], D, m, r, h => h
  | .constraints c :: xs, D, m, r, h => by
    simp only [readSections] at h
    cases hv : visitPref D.rlang c with
    | error e => simp [hv] at h
    | ok a =>
      simp only [hv] at h
      simpa only [List.filter_cons, MetaSec.NoCons, Bool.false_eq_true, if_false] using readSections_forget xs D m r h
  | .other x :: xs, D, m, r, h => by
    simp only [List.filter_cons, MetaSec.NoCons, if_true]
    simp only [readSections] at h ⊢
    cases hv : readMetas D m [x] with
    | error e => simp [hv] at h
    | ok a =>
      obtain ⟨D', m'⟩ := a
      simp only [hv] at h ⊢
      exact readSections_forget xs D' m' r h

theorem readSec_append {k f D xs D1 x x1} (ys : List SX) (h : readSec k f D xs = .ok (D1, x :: x1)) :
    readSec k f D (xs ++ ys) = .ok (D1, x :: x1 ++ ys) := by
  cases xs with
  | nil => simp [readSec] at h
  | cons z zs =>
    simp only [readSec, List.cons_append] at h ⊢
    cases hz : secOf k z with
    | none =>
      simp only [hz, Except.ok.injEq, Prod.mk.injEq, List.cons.injEq] at h ⊢
      obtain ⟨rfl, rfl, rfl⟩ := h
      exact ⟨rfl, rfl, rfl⟩
    | some as =>
      simp only [hz] at h ⊢
      cases hf : f D as with
      | error e => simp [hf] at h
      | ok D' =>
        simp only [hf, Except.ok.injEq, Prod.mk.injEq] at h ⊢
        obtain ⟨rfl, rfl⟩ := h
        exact ⟨rfl, rfl⟩

theorem readMetas_append : ∀ (xs ys : List SX) (D : PDecls) (m : Option (Bool × Term)), readMetas D m (xs ++ ys) =
    match readMetas D m xs with
    | .error e => .error e
    | .ok (D', m') => readMetas D' m' ys
  | [], ys, D, m => rfl
  | x :: xs, ys, D, m => by
    simp only [List.cons_append, readMetas]
    split
    · split
      · rfl
      · split
        · rfl
        · exact readMetas_append xs ys _ _
    · split
      · rfl
      · split
        · rfl
        · exact readMetas_append xs ys _ _

theorem readSections_other : ∀ (ys : List SX) (D : PDecls) (m : Option (Bool × Term)), readSections D m (ys.map .other) = readMetas D m ys
  | [], D, m => rfl
  | y :: ys, D, m => by
    have h := readMetas_append [y] ys D m
    simp only [List.cons_append, List.nil_append] at h
    rw [h, List.map_cons]
    simp only [readSections]
    cases readMetas D m [y] with
    | error e => rfl
    | ok r => exact readSections_other ys r.1 r.2

/-! ### Theorems -/

/-- C133: without constraints the instance is read as the file with all its sections. -/
theorem C133_other (P : PDomain) (hs ys : List SX) (p : PProblem) (h : readInstance P (.list hs) = .ok p) :
    readInstanceWith P (.list hs) (ys.map .other) = readInstance P (.list (hs ++ ys)) := by
  simp only [readInstanceWith, h, readSections_other]
  unfold readInstance at h
  split at h
  · rename_i n m xs e
    cases e
    split at h
    · cases h
    · rename_i D1 x1 h1
      split at h
      · cases h
      · rename_i D2 x2 h2
        split at h
        · rename_i xi xg metas
          have hx1 : ∃ a b, x1 = a :: b := by
            cases x1 with
            | nil => simp [readSec] at h2
            | cons a b => exact ⟨a, b, rfl⟩
          obtain ⟨a, b, rfl⟩ := hx1
          have h1' := readSec_append ys h1
          have h2' := readSec_append ys h2
          simp only [List.cons_append] at h1' h2'
          simp only [List.cons_append, readInstance, h1', h2']
          split at h
          · rename_i is g hi hg
            try simp only [hi, hg]
            split at h
            · cases h
            · rename_i mm hm
              try simp only [hm]
              split at h
              · cases h
              · rename_i f hf
                simp only [hf, readMetas_append]
                split at h
                · cases h
                · rename_i D3 mt hmt
                  cases h
                  simp only [hmt]
                  cases readMetas D3 mt ys <;> rfl
          · cases h
        · cases h
  · cases h

/-- C133: a section with constraints is read exactly if it is a conjunction of readable formulas, or a preference, or one of these below quantifiers (whose variables
are not in scope of the formulas). -/
theorem C133_read (P : PDomain) (head : SX) (c : PrefCon) (p : PProblem) (h : readInstance P head = .ok p) :
    (∃ q, readInstanceWith P head [.constraints c] = .ok q) ↔ SectionReads p.lang.rlang c := by
  rw [← (visitPref_spec p.lang.rlang c).1]
  simp only [readInstanceWith, h, readSections]
  cases visitPref p.lang.rlang c <;> simp

/-- C133 fails: a constraint with a keyword (`always`, `sometime`, …) is an error, alone and within a conjunction. -/
theorem C133_keyword_refuted (P : PDomain) (head : SX) (gs : List SX) (before after : List ConGD) :
    ¬ ∃ q, readInstanceWith P head [.constraints (.plain (before ++ .timed gs :: after))] = .ok q := by
  rintro ⟨q, h⟩
  cases hp : readInstance P head with
  | error e => simp [readInstanceWith, hp] at h
  | ok p =>
    have := (C133_read P head _ p hp).1 ⟨q, h⟩
    cases this with
    | goals _ h =>
      cases h with
      | plain _ h =>
        obtain ⟨g, e, -⟩ := h (.timed gs) (by simp)
        cases e

/-- C133 fails: constraints that are read are forgotten. The problem is the one of the file without them. -/
theorem C133_forgotten_refuted (P : PDomain) (head : SX) (secs : List MetaSec) (p : PProblem) (h : readInstanceWith P head secs = .ok p) :
    readInstanceWith P head (secs.filter MetaSec.NoCons) = .ok p := by
  unfold readInstanceWith at h ⊢
  split at h
  · cases h
  · rename_i q hq
    split at h
    · cases h
    · rename_i D m hs
      rw [readSections_forget secs _ _ _ hs]
      exact h

/-- The trees of the sections without constraints. -/
def otherTrees : List MetaSec → List SX
  | [] => []
  | .constraints _ :: xs => otherTrees xs
  | .other x :: xs => x :: otherTrees xs

/-- C133: a file with constraints that is read gives the problem of the file from which the constraints are removed. -/
theorem C133_removed_refuted (P : PDomain) (hs : List SX) (secs : List MetaSec) (p : PProblem) (h : readInstanceWith P (.list hs) secs = .ok p) :
    readInstance P (.list (hs ++ otherTrees secs)) = .ok p := by
  have h1 := C133_forgotten_refuted P (.list hs) secs p h
  have e : ∀ l : List MetaSec, l.filter MetaSec.NoCons = (otherTrees l).map .other := by
    intro l
    induction l with
    | nil => rfl
    | cons a l ih =>
      cases a with
      | constraints c => simpa [MetaSec.NoCons, otherTrees] using ih
      | other x => rw [List.filter_cons_of_pos (by rfl), ih]; rfl
  rw [e] at h1
  cases hp : readInstance P (.list hs) with
  | error e => simp [readInstanceWith, hp] at h
  | ok q => rw [← C133_other P hs _ q hp]; exact h1

/-- The formula `(p b-1)`. -/
def flipAtom : SX := .list [.tok (.name "p"), .tok (.name "b-1")]

theorem C133_refuted : ¬ C133_full := by
  intro h
  have hr : ∃ P y p, readInstance P y = .ok p ∧ ReadsAs p.lang.rlang flipAtom := by
    have h0 := flip_read
    unfold readProblemFiles at h0
    rw [flipDom_read] at h0
    dsimp only at h0
    cases hy : sxTree (lexFile false flipInstText) with
    | error e => simp [hy] at h0
    | ok y =>
      rw [hy] at h0
      exact ⟨_, y, flipProblem, h0, _, rfl⟩
  obtain ⟨P, y, p, hy, ha⟩ := hr
  have hn : ReadsAs p.lang.rlang (.list [.tok (.kw .kNot), flipAtom]) := by
    obtain ⟨f, hf⟩ := ha
    exact ⟨neg f, by simp only [readF, hf]⟩
  obtain ⟨q1, h1⟩ := (C133_read P y (.plain [.goal flipAtom]) p hy).2 (.goals _ (.plain _ fun c hc => ⟨_, List.mem_singleton.1 hc, ha⟩))
  obtain ⟨q2, h2⟩ := (C133_read P y (.plain [.goal (.list [.tok (.kw .kNot), flipAtom])]) p hy).2 (.goals _ (.plain _ fun c hc => ⟨_, List.mem_singleton.1 hc, hn⟩))
  have e1 := C133_forgotten_refuted P y _ q1 h1
  have e2 := C133_forgotten_refuted P y _ q2 h2
  simp only [List.filter_cons, MetaSec.NoCons, Bool.false_eq_true, if_false, List.filter_nil] at e1 e2
  rw [e1] at e2
  cases e2
  exact h P y flipAtom q1 q1 h1 h2 rfl

/-! ### Examples -/

example : SectionReads flipProblem.lang.rlang (.conj [.plain [.goal flipAtom], .plain []]) := by
  refine .goals _ (.conj _ fun c hc => ?_)
  simp only [List.mem_cons, List.not_mem_nil, or_false] at hc
  rcases hc with rfl | rfl
  · exact .plain _ fun c hc => by simp only [List.mem_singleton] at hc; exact ⟨flipAtom, hc, _, rfl⟩
  · exact .plain _ fun c hc => by cases hc

/-- A preference for a constraint with a keyword is read (and forgotten). -/
example : SectionReads flipProblem.lang.rlang (.pref (.timed [flipAtom])) :=
  .pref _ (.timed _ fun g hg => by simp only [List.mem_singleton] at hg; subst hg; exact ⟨_, rfl⟩)

/-- A constraint whose keyword is omitted is read; not one with a keyword. -/
example : (visitPref flipProblem.lang.rlang (.plain [.timed [flipAtom]])) = .error .typeError := rfl

/-- The variable of a quantified constraint is not in scope. -/
example : ∃ e, visitPref flipProblem.lang.rlang (.all [] (.plain [.goal (.list [.tok (.name "p"), .tok (.var "?x")])])) = .error e := ⟨_, rfl⟩

end Tarski

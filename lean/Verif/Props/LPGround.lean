import Verif.LPGroundLemmas
import Verif.Props.ReachExact
/-! Properties C49 and C50: the grounding strategy based on the reachability logic program, given the answer of the solver. -/
namespace Tarski

/-! ### Specification: what the solver writes -/

/-- The text of a predicate symbol of the program, before the translation of hyphens. -/
def symText : LPSym → AStr
  | .type s => "type_".toList ++ s.toList
  | .atom p => "atom_".toList ++ p.toList
  | .action a => "action_".toList ++ a.toList
  | .aux n => "__f".toList ++ (toString n).toList
  | .goal => "goal".toList

/-- The texts of a list of arguments, separated by commas. -/
def commaSep : List AStr → AStr
  | [] => []
  | [a] => a
  | a :: as => a ++ ',' :: commaSep as

/-- A fact as the solver prints it: `s.` or `s(a1,...,an).`. -/
def printFact (s : AStr) (args : List AStr) : AStr :=
  if args = [] then s ++ ['.'] else s ++ '(' :: commaSep args ++ [')', '.']

/-- A name without punctuation. -/
def CleanName (s : AStr) : Prop := ∀ c ∈ s, c ∉ ['(', ')', ',', '.', ' ', '\n']

/-- The lines are a print-out of the facts `D`, each possibly followed by the end of the line, in which every name `x` that
occurs in a fact is written `ren x`, without punctuation, and `back` translates `ren x` to `x`. -/
structure PrintsFacts (tr : Translator) (D : LPSym → List String → Prop) (lines : List AStr) (ren : AStr → AStr) : Prop where
  sound : ∀ l ∈ lines, ∃ s as, D s as ∧ ∃ e, (e = [] ∨ e = ['\n']) ∧
    l = printFact (ren (symText s)) (as.map fun a => ren a.toList) ++ e
  complete : ∀ s as, D s as → ∃ e, (e = [] ∨ e = ['\n']) ∧
    printFact (ren (symText s)) (as.map fun a => ren a.toList) ++ e ∈ lines
  sym : ∀ s as, D s as → CleanName (ren (symText s)) ∧ tr.back (ren (symText s)) = symText s
  arg : ∀ s as, D s as → ∀ a ∈ as, CleanName (ren a.toList) ∧ tr.back (ren a.toList) = a.toList

/-- The solver has been run on the logic program of the problem, and its answer lists the facts that can be derived. -/
def SolverRunOf (X : LPInput) (R : CmpRel) (ground incl : Bool) (run : SolverRun) : Prop :=
  ∃ ord st tr lines ren, (∀ l, (ord l).Perm l) ∧ createLP X ord ground incl = .ok st ∧ run = .ok (tr, lines) ∧
    PrintsFacts tr (LPDer R st.rules) lines ren

/-- A new strategy for a problem with the given fluent symbols. -/
def newStrategy (X : LPInput) (ground : Bool) (fluents : List String) : LPStrategy :=
  ⟨ground, X.actions.map (fun a => a.1.toList), fluents.map String.toList, none⟩

/-! ### Lemmas -/

theorem commaSep_chars {c : Char} {as : List AStr} (h : c ∈ commaSep as) : c = ',' ∨ ∃ a ∈ as, c ∈ a := by
  induction as with
  | nil => simp [commaSep] at h
  | cons a as ih =>
    cases as with
    | nil => exact .inr ⟨a, by simp, by simpa [commaSep] using h⟩
    | cons b bs =>
      simp only [commaSep, List.mem_append, List.mem_cons] at h
      rcases h with h | h | h
      · exact .inr ⟨a, by simp, h⟩
      · exact .inl h
      · rcases ih (by simpa [commaSep] using h) with h | ⟨x, hx, hc⟩
        · exact .inl h
        · exact .inr ⟨x, by simp [List.mem_cons.mp hx], hc⟩

theorem pySplit_commaSep {as : List AStr} (hne : as ≠ []) (h : ∀ a ∈ as, ',' ∉ a) : pySplit ',' (commaSep as) = as := by
  induction as with
  | nil => exact absurd rfl hne
  | cons a as ih =>
    cases as with
    | nil => simpa [commaSep] using pySplit_none (h a (by simp))
    | cons b bs =>
      simp only [commaSep]
      rw [pySplit_cut _ (h a (by simp)), ih (by simp) (fun x hx => h x (by simp [List.mem_cons.mp hx]))]

/-- Parsing a printed fact gives back its parts. -/
theorem parseLine_print (tr : Translator) {s : AStr} {as : List AStr} (e : AStr) (he : e = [] ∨ e = ['\n']) (hs : CleanName s)
    (ha : ∀ a ∈ as, CleanName a) : parseLine tr (printFact s as ++ e) = .ok (tr.back s, as.map tr.back) := by
  have h1 : pyRstrip [' ', '\n', '.'] (printFact s as ++ e) = pyRstrip [' ', '\n', '.'] (printFact s as) := by
    rcases he with rfl | rfl
    · rw [List.append_nil]
    · exact pyRstrip_snoc _ (by simp)
  unfold parseLine
  rw [h1]
  by_cases hn : as = []
  · subst hn
    have h2 : pyRstrip [' ', '\n', '.'] (printFact s []) = s := by
      simp only [printFact, if_true]
      rw [pyRstrip_snoc _ (by simp)]
      exact pyRstrip_none (fun c hc hm => hs c hc (by simp only [List.mem_cons, List.not_mem_nil, or_false] at hm ⊢; tauto))
    have h3 : pyRstrip [')'] s = s := pyRstrip_none (fun c hc hm => hs c hc (by
      simp only [List.mem_cons, List.not_mem_nil, or_false] at hm ⊢; tauto))
    have h4 : pySplit '(' s = [s] := pySplit_none (fun hm => hs _ hm (by simp))
    rw [h2, h3, h4]
    rfl
  · have h2 : pyRstrip [' ', '\n', '.'] (printFact s as) = s ++ '(' :: commaSep as ++ [')'] := by
      simp only [printFact, if_neg hn]
      rw [show s ++ '(' :: commaSep as ++ [')', '.'] = (s ++ '(' :: commaSep as ++ [')']) ++ ['.'] by simp,
        pyRstrip_snoc _ (by simp)]
      exact pyRstrip_stop _ (by simp)
    have hargs : ∀ c ∈ commaSep as, c ≠ '(' ∧ c ≠ ')' := by
      intro c hc
      rcases commaSep_chars hc with rfl | ⟨a, ham, hca⟩
      · decide
      · have := ha a ham c hca
        simp only [List.mem_cons, not_or] at this
        exact ⟨this.1, this.2.1⟩
    have h3 : pyRstrip [')'] (s ++ '(' :: commaSep as ++ [')']) = s ++ '(' :: commaSep as := by
      rw [pyRstrip_snoc _ (by simp)]
      refine pyRstrip_none (fun c hc hm => ?_)
      simp only [List.mem_singleton] at hm
      subst hm
      simp only [List.mem_append, List.mem_cons] at hc
      rcases hc with hc | hc | hc
      · exact hs _ hc (by simp)
      · exact absurd hc (by decide)
      · exact (hargs _ hc).2 rfl
    have h4 : pySplit '(' (s ++ '(' :: commaSep as) = [s, commaSep as] := by
      rw [pySplit_cut _ (fun hm => hs _ hm (by simp)), pySplit_none (fun hm => (hargs _ hm).1 rfl)]
    rw [h2, h3, h4]
    simp only
    rw [pySplit_commaSep hn (fun a ham hm => ha a ham _ hm (by simp))]

theorem symText_cases (s : LPSym) : (∃ x, s = .type x ∧ symText s = ['t', 'y', 'p', 'e', '_'] ++ x.toList) ∨
    (∃ x, s = .atom x ∧ symText s = ['a', 't', 'o', 'm', '_'] ++ x.toList) ∨
    (∃ x, s = .action x ∧ symText s = ['a', 'c', 't', 'i', 'o', 'n', '_'] ++ x.toList) ∨
    (∃ x, s = .aux x ∧ symText s = ['_', '_', 'f'] ++ (toString x).toList) ∨
    (s = .goal ∧ symText s = ['g', 'o', 'a', 'l']) := by
  match s with
  | .type x => exact .inl ⟨x, rfl, rfl⟩
  | .atom x => exact .inr (.inl ⟨x, rfl, rfl⟩)
  | .action x => exact .inr (.inr (.inl ⟨x, rfl, rfl⟩))
  | .aux x => exact .inr (.inr (.inr (.inl ⟨x, rfl, rfl⟩)))
  | .goal => exact .inr (.inr (.inr (.inr ⟨rfl, rfl⟩)))

theorem symText_inj_key {s t : LPSym} (ht : ∀ n, t ≠ .aux n) (h : symText s = symText t) : s = t := by
  rcases symText_cases s with ⟨x, rfl, e⟩ | ⟨x, rfl, e⟩ | ⟨x, rfl, e⟩ | ⟨x, rfl, e⟩ | ⟨rfl, e⟩ <;>
  rcases symText_cases t with ⟨y, rfl, e'⟩ | ⟨y, rfl, e'⟩ | ⟨y, rfl, e'⟩ | ⟨y, rfl, e'⟩ | ⟨rfl, e'⟩ <;>
  first | rfl | (rw [e, e'] at h; clear e e'; simp [String.toList_inj] at h ⊢ <;> first | exact h | exact absurd rfl (ht _))
theorem mem_lpGet {m : LPModel} {k : AStr} {as : List AStr} : as ∈ m.get k ↔ (k, as) ∈ m := by
  simp only [LPModel.get, List.mem_map, List.mem_filter, decide_eq_true_eq]
  constructor
  · rintro ⟨⟨a, b⟩, ⟨h1, h2⟩, rfl⟩
    simp only at h2
    subst h2
    exact h1
  · intro h
    exact ⟨(k, as), ⟨h, rfl⟩, rfl⟩

/-- The parsed model contains the printed facts. -/
theorem parseModel_prints {tr : Translator} {D : LPSym → List String → Prop} {lines : List AStr} {ren : AStr → AStr}
    (h : PrintsFacts tr D lines ren) : ∃ m, parseModel tr lines = .ok m ∧
      ∀ x, x ∈ m ↔ ∃ s as, D s as ∧ x = (symText s, as.map String.toList) := by
  have key : ∀ ls : List AStr, (∀ l ∈ ls, l ∈ lines) → ∃ m, parseModel tr ls = .ok m ∧
      ∀ x, x ∈ m ↔ ∃ l ∈ ls, parseLine tr l = .ok x := by
    intro ls
    induction ls with
    | nil => exact fun _ => ⟨[], rfl, by simp⟩
    | cons l ls ih =>
      intro hl
      obtain ⟨m, hm, hx⟩ := ih (fun x hx => hl x (by simp [hx]))
      obtain ⟨s, as, hD, e, he, hle⟩ := h.sound l (hl l (by simp))
      have hp := parseLine_print tr (as := as.map fun a => ren a.toList) e he (h.sym s as hD).1 (by
        intro a ha
        obtain ⟨b, hb, rfl⟩ := List.mem_map.mp ha
        exact (h.arg s as hD b hb).1)
      rw [← hle] at hp
      refine ⟨_ :: m, by simp only [parseModel, hp, hm]; rfl, ?_⟩
      intro x
      simp only [List.mem_cons, hx, exists_eq_or_imp, hp, Except.ok.injEq]
      exact or_congr_left eq_comm
  obtain ⟨m, hm, hx⟩ := key lines (fun _ h => h)
  refine ⟨m, hm, fun x => ?_⟩
  have hp : ∀ s as, D s as → ∀ e, (e = [] ∨ e = ['\n']) →
      parseLine tr (printFact (ren (symText s)) (as.map fun a => ren a.toList) ++ e) = .ok (symText s, as.map String.toList) := by
    intro s as hD e he
    rw [parseLine_print tr e he (h.sym s as hD).1 (by
      intro a ha
      obtain ⟨b, hb, rfl⟩ := List.mem_map.mp ha
      exact (h.arg s as hD b hb).1), (h.sym s as hD).2, List.map_map]
    congr 2
    exact List.map_congr_left (fun a ha => (h.arg s as hD a ha).2)
  rw [hx]
  constructor
  · rintro ⟨l, hl, hlx⟩
    obtain ⟨s, as, hD, e, he, rfl⟩ := h.sound l hl
    rw [hp s as hD e he, Except.ok.injEq] at hlx
    exact ⟨s, as, hD, hlx.symm⟩
  · rintro ⟨s, as, hD, rfl⟩
    obtain ⟨e, he, hl⟩ := h.complete s as hD
    exact ⟨_, hl, hp s as hD e he⟩

theorem map_toList_inj {as bs : List String} (h : as.map String.toList = bs.map String.toList) : as = bs :=
  (List.map_inj_right (fun _ _ h => String.toList_inj.mp h)).mp h

theorem lpGet_prints {D : LPSym → List String → Prop} {m : LPModel}
    (h : ∀ x, x ∈ m ↔ ∃ s as, D s as ∧ x = (symText s, as.map String.toList)) (s : LPSym)
    (hs : ∀ s', symText s' = symText s → s' = s) (bs : List AStr) :
    bs ∈ m.get (symText s) ↔ ∃ as, D s as ∧ bs = as.map String.toList := by
  rw [mem_lpGet, h]
  constructor
  · rintro ⟨s', as, hD, he⟩
    simp only [Prod.mk.injEq] at he
    obtain ⟨h1, h2⟩ := he
    have := hs s' h1.symm
    subst this
    exact ⟨as, hD, h2⟩
  · rintro ⟨as, hD, rfl⟩
    exact ⟨s, as, hD, rfl⟩

/-- The test `len(model[GOAL]) != 1`, when the goal has no arguments. -/
theorem goal_test {l : List (List AStr)} (h : ∀ b ∈ l, b = []) : l.dedup.length ≠ 1 ↔ [] ∉ l := by
  have h' : ∀ b ∈ l.dedup, b = [] := fun b hb => h b (List.mem_dedup.mp hb)
  have hn := List.nodup_dedup l
  rw [← List.mem_dedup]
  cases e : l.dedup with
  | nil => simp
  | cons x xs =>
    rw [e] at h' hn
    have hx := h' x (by simp)
    subst hx
    cases xs with
    | nil => simp
    | cons y ys =>
      have hy := h' y (by simp)
      subst hy
      simp at hn


theorem lpType_head {t l} (h : lpType t = .ok l) : ∃ s as, l = .pred (.type s) as := by
  cases t with
  | var v =>
    simp only [lpType] at h
    cases hv : makeVarName v.sym with
    | error e => simp [hv] at h
    | ok x => simp only [hv, Except.ok.injEq] at h; exact ⟨_, _, h.symm⟩
  | const n s =>
    cases n with
    | str t =>
      simp only [lpType] at h
      cases hv : uncapitalize t with
      | error e => simp [hv] at h
      | ok x => simp only [hv, Except.ok.injEq] at h; exact ⟨_, _, h.symm⟩
    | int _ => simp [lpType] at h
    | pyNone => simp [lpType] at h
  | _ => simp [lpType] at h

theorem lpAtom_notGoal {p ts l} (h : lpAtom p ts = .ok l) (args) : l ≠ .pred .goal args := by
  simp only [lpAtom] at h
  rintro rfl
  cases hts : lpTerms ts with
  | error e => simp [hts] at h
  | ok xs =>
    simp only [hts] at h
    cases p with
    | user n => simp at h
    | cmp c =>
      simp only at h
      split at h
      · simp at h
      · cases h

/-- The only rule for the goal has no arguments. -/
theorem goal_noArgs {X : LPInput} {ord ground incl st R as} (h : createLP X ord ground incl = .ok st)
    (hd : LPDer R st.rules .goal as) : as = [] := by
  obtain ⟨st1, st2, st3, st4, b, st5, h1, h2, h3, h4, h5, rfl⟩ := createLP_parts h
  cases hd with
  | rule r θ _ args hr hh _ _ =>
    suffices args = [] by simp [this]
    have haux : IsAuxRule r → args = [] := by
      rintro ⟨k, args', he⟩
      rw [hh] at he
      cases he
    simp only [LPSt.add, List.mem_append, List.mem_singleton] at hr
    rcases hr with hr | rfl
    · rcases lpCondition_origin h5 hr with hr | hr
      · rcases lpActions_origin h4 hr with hr | hr | ⟨n, a, hm, hr⟩
        · rcases lpInitAtoms_origin h3 hr with hr | ⟨p, ts, l, hm, hl, rfl⟩
          · rcases lpSorts_origin h2 hr with hr | ⟨s', p, hs', hi, hp, rfl⟩
            · rcases lpConsts_origin h1 hr with hr | ⟨n, s', l, hm, hl, rfl⟩
              · simp at hr
              · obtain ⟨s, as, rfl⟩ := lpType_head hl
                cases hh
            · cases hh
          · exact absurd hh (lpAtom_notGoal hl _)
        · exact haux hr
        · rcases hr with ⟨_, _, _, _, _, _, _, _, _, _, _, rfl⟩ | ⟨_, _, _, _, _, _, _, _, c, p, ts, hd, bd, s1, s2, _, hl, _, _, _, rfl⟩
          · cases hh
          · exact absurd hh (lpAtom_notGoal hl _)
      · exact haux hr
    · cases hh
      rfl

open Classical in
theorem solve_new {X : LPInput} {R : CmpRel} {ground incl : Bool} {run : SolverRun} {fl : List String}
    (h : SolverRunOf X R ground incl run) : ∃ ord st, ∃ m : LPModel, (∀ l : List Var, (ord l).Perm l) ∧ createLP X ord ground incl = .ok st ∧
    (∀ x, x ∈ m ↔ ∃ s as, LPDer R st.rules s as ∧ x = (symText s, as.map String.toList)) ∧
    (newStrategy X ground fl).solve run = ({ newStrategy X ground fl with model := some m },
      if LPDer R st.rules .goal [] then .ok m else .error .representation) := by
  obtain ⟨ord, st, tr, lines, ren, hord, hc, rfl, hp⟩ := h
  obtain ⟨m, hm, hx⟩ := parseModel_prints hp
  refine ⟨ord, st, m, hord, hc, hx, ?_⟩
  have hg := lpGet_prints hx .goal (fun s' h => symText_inj_key (by simp) h)
  have ht := goal_test (l := m.get "goal".toList) (by
    intro b hb
    obtain ⟨as, hd, rfl⟩ := (hg b).mp hb
    rw [goal_noArgs hc hd]; rfl)
  have hgoal : [] ∈ m.get "goal".toList ↔ LPDer R st.rules .goal [] := by
    refine (hg []).trans ⟨?_, fun hd => ⟨[], hd, rfl⟩⟩
    rintro ⟨as, hd, _⟩
    rw [goal_noArgs hc hd] at hd
    exact hd
  unfold LPStrategy.solve
  simp only [newStrategy, hm]
  by_cases hd : LPDer R st.rules .goal []
  · rw [if_neg (fun hn => (ht.mp hn) (hgoal.mpr hd)), if_pos hd]
  · rw [if_pos (ht.mpr (fun hn => hd (hgoal.mp hn))), if_neg hd]

/-! ### C49 -/

theorem groundActions_new {X : LPInput} {R : CmpRel} {incl : Bool} {run : SolverRun} {fl : List String}
    (h : SolverRunOf X R true incl run) : ∃ ord st, (∀ l : List Var, (ord l).Perm l) ∧ createLP X ord true incl = .ok st ∧
    ((LPDer R st.rules .goal [] ∧ ∃ gs, ((newStrategy X true fl).groundActions run).2 = .ok gs ∧
        gs.map Prod.fst = X.actions.map (fun a => a.1.toList) ∧
        ∀ k g, (k.toList, g) ∈ gs → ∀ b, b ∈ g ↔ ∃ as, LPDer R st.rules (.action k) as ∧ b = as.map String.toList) ∨
     (¬ LPDer R st.rules .goal [] ∧ ((newStrategy X true fl).groundActions run).2 = .error .representation)) := by
  obtain ⟨ord, st, m, hord, hc, hx, hs⟩ := solve_new (fl := fl) h
  refine ⟨ord, st, hord, hc, ?_⟩
  unfold LPStrategy.groundActions
  rw [hs]
  simp only [newStrategy, Bool.not_true, Bool.false_eq_true, if_false]
  by_cases hd : LPDer R st.rules .goal []
  · left
    rw [if_pos hd]
    refine ⟨hd, _, rfl, by simp, ?_⟩
    intro k g hk b
    simp only [List.map_map, List.mem_map, Function.comp, Prod.mk.injEq, String.toList_inj] at hk
    obtain ⟨x, _, rfl, rfl⟩ := hk
    exact lpGet_prints hx (.action x.1) (fun s' h => symText_inj_key (by simp) h) b
  · right
    rw [if_neg hd]
    exact ⟨hd, rfl⟩

/-- C49: a new strategy whose solver answers correctly grounds the actions completely: it returns a grounding for every action,
which contains every instance that is applicable in some reachable state; it raises ReachabilityLPUnsolvable, if at all, only
when no reachable state satisfies the goal. (For the problems for which C47 holds.) -/
theorem C49_complete_partial (X : LPInput) (W : LPWellFormed X) (R : CmpRel) (incl : Bool) (run : SolverRun) (fl : List String)
    (h : SolverRunOf X R true incl run) :
    (∃ gs, ((newStrategy X true fl).groundActions run).2 = .ok gs ∧
      ∀ n a σ S, (n, a) ∈ X.actions → PReach X R S → ApplicableIn (stateInterp X.dom R S) a σ →
        ∃ g, (n.toList, g) ∈ gs ∧ (a.params.map fun v => (σ v).toList) ∈ g) ∨
    (((newStrategy X true fl).groundActions run).2 = .error .representation ∧
      ∀ S, PReach X R S → ∀ σ, ¬ Sat (stateInterp X.dom R S) X.goal σ) := by
  obtain ⟨ord, st, hord, hc, ⟨hd, gs, he, hk, hg⟩ | ⟨hd, he⟩⟩ := groundActions_new (fl := fl) h
  · left
    refine ⟨gs, he, ?_⟩
    intro n a σ S hm hS ha
    have hn : n.toList ∈ gs.map Prod.fst := by rw [hk]; exact List.mem_map.mpr ⟨(n, a), hm, rfl⟩
    obtain ⟨⟨k, g⟩, hkg, hkn⟩ := List.mem_map.mp hn
    simp only at hkn
    subst hkn
    refine ⟨g, hkg, (hg n g hkg _).mpr ⟨a.params.map σ, ?_, by simp [List.map_map, Function.comp_def]⟩⟩
    exact (C47_sound_partial X W R ord hord true incl st hc S hS).2.1 rfl n a σ hm ha
  · right
    exact ⟨he, fun S hS σ hs => hd ((C47_sound_partial X W R ord hord true incl st hc S hS).2.2 σ hs)⟩

/-- C49: the groundings are exactly the instances that are applicable in the relaxed problem, and the exception is raised if
and only if the relaxed problem does not reach the goal. (For the problems for which C48 holds.) -/
theorem C49_exact_partial (X : LPInput) (W : LPWellFormed X) (R : CmpRel) (incl : Bool) (T : LPTight X incl) (run : SolverRun)
    (fl : List String) (h : SolverRunOf X R true incl run) :
    ((∃ σ, Sat (stateInterp X.dom R (RelaxReach X R incl)) (dropNeg incl X.goal) σ) ∧
      ∃ gs, ((newStrategy X true fl).groundActions run).2 = .ok gs ∧ gs.map Prod.fst = X.actions.map (fun a => a.1.toList) ∧
      ∀ n a g, (n, a) ∈ X.actions → (n.toList, g) ∈ gs → ∀ b, b ∈ g ↔ ∃ σ,
        ApplicableIn (stateInterp X.dom R (RelaxReach X R incl)) ⟨a.params, dropNeg incl a.pre, a.effs⟩ σ ∧
        b = a.params.map fun v => (σ v).toList) ∨
    ((¬ ∃ σ, Sat (stateInterp X.dom R (RelaxReach X R incl)) (dropNeg incl X.goal) σ) ∧
      ((newStrategy X true fl).groundActions run).2 = .error .representation) := by
  obtain ⟨ord, st, hord, hc, H⟩ := groundActions_new (fl := fl) h
  obtain ⟨_, e2, e3⟩ := C48_exact_partial X W R ord hord true incl T st hc
  rcases H with ⟨hd, gs, he, hk, hg⟩ | ⟨hd, he⟩
  · refine .inl ⟨e3.mp hd, gs, he, hk, ?_⟩
    intro n a g hm hkg b
    rw [hg n g hkg b]
    constructor
    · rintro ⟨as, hder, rfl⟩
      obtain ⟨a', σ, hm', ha', rfl⟩ := (e2 rfl n as).mp hder
      have haa : a' = a := by
        have := List.inj_on_of_nodup_map T.names hm' hm rfl
        simpa using this
      subst haa
      exact ⟨σ, ha', by simp [List.map_map, Function.comp_def]⟩
    · rintro ⟨σ, ha, rfl⟩
      exact ⟨a.params.map σ, (e2 rfl n _).mpr ⟨a, σ, hm, ha, rfl⟩, by simp [List.map_map, Function.comp_def]⟩
  · exact .inr ⟨fun hs => hd (e3.mpr hs), he⟩

/-! State variables -/

theorem addVariables_ok {isConst : AStr → Bool} {p : AStr} {bs : List (List AStr)} {idx : SymIndex (AStr × List AStr)}
    {os : List (AStr × List AStr)} (hi : SIInv idx os) (hn : bs.Nodup) (hf : ∀ b ∈ bs, (p, b) ∉ os)
    (hc : ∀ b ∈ bs, ∀ c ∈ b, isConst c = true) :
    ∃ idx', addVariables isConst p idx bs = .ok idx' ∧ SIInv idx' (os ++ bs.map fun b => (p, b)) := by
  induction bs generalizing idx os with
  | nil => exact ⟨idx, rfl, by simpa using hi⟩
  | cons b bs ih =>
    simp only [List.nodup_cons] at hn
    have hb : bindingConsts isConst b = .ok b := by
      simp only [bindingConsts]
      rw [if_pos]
      simpa using hc b (by simp)
    obtain ⟨h1, h2, _⟩ := siInv_add hi (p, b)
    rw [if_neg (hf b (by simp))] at h2
    obtain ⟨idx', e1, e2⟩ := ih h1 hn.2 (by
      intro b' hb' hm
      simp only [List.mem_append, List.mem_singleton, Prod.mk.injEq, true_and] at hm
      rcases hm with hm | rfl
      · exact hf b' (by simp [hb']) hm
      · exact hn.1 hb') (fun b' hb' => hc b' (by simp [hb']))
    refine ⟨idx', ?_, by simpa using e2⟩
    simp only [addVariables, hb]
    rw [show idx.add (p, b) = ((idx.add (p, b)).1, none) by rw [← h2]]
    exact e1

theorem addSymbols_ok {isConst : AStr → Bool} {m : LPModel} {ps : List AStr} {idx : SymIndex (AStr × List AStr)}
    {os : List (AStr × List AStr)} (hi : SIInv idx os) (hn : ps.Nodup) (hf : ∀ p ∈ ps, ∀ b, (p, b) ∉ os)
    (hc : ∀ p ∈ ps, ∀ b ∈ m.get ("atom_".toList ++ p), ∀ c ∈ b, isConst c = true) :
    ∃ idx' os', addSymbols isConst m idx ps = .ok idx' ∧ SIInv idx' os' ∧
      ∀ p b, (p, b) ∈ os' ↔ (p, b) ∈ os ∨ (p ∈ ps ∧ b ∈ m.get ("atom_".toList ++ p)) := by
  induction ps generalizing idx os with
  | nil => exact ⟨idx, os, rfl, hi, by simp⟩
  | cons q ps ih =>
    simp only [List.nodup_cons] at hn
    obtain ⟨i1, e1, s1⟩ := addVariables_ok (isConst := isConst) (p := q) (bs := (m.get ("atom_".toList ++ q)).dedup) hi
      (List.nodup_dedup _) (fun b _ => hf q (by simp) b) (fun b hb => hc q (by simp) b (List.mem_dedup.mp hb))
    obtain ⟨i2, os2, e2, s2, h2⟩ := ih s1 hn.2 (by
      intro p hp b hm
      simp only [List.mem_append, List.mem_map, Prod.mk.injEq] at hm
      rcases hm with hm | ⟨_, _, rfl, _⟩
      · exact hf p (by simp [hp]) b hm
      · exact hn.1 hp) (fun p hp => hc p (by simp [hp]))
    refine ⟨i2, os2, by simp only [addSymbols, e1]; exact e2, s2, ?_⟩
    intro p b
    rw [h2]
    simp only [List.mem_append, List.mem_map, List.mem_dedup, Prod.mk.injEq, exists_eq_right_right, List.mem_cons]
    constructor
    · rintro ((h | ⟨h, rfl⟩) | ⟨h, h'⟩)
      · exact .inl h
      · exact .inr ⟨.inl rfl, h⟩
      · exact .inr ⟨.inr h, h'⟩
    · rintro (h | ⟨rfl | h, h'⟩)
      · exact .inl (.inl h)
      · exact .inl (.inr ⟨h', rfl⟩)
      · exact .inr ⟨h, h'⟩

/-- C49: the index of state variables of a new strategy (with either logic program) contains, without repetitions, exactly
the atoms of the fluent symbols that the relaxed problem reaches; so it contains every fluent atom that is true in a
reachable state. (For the problems for which C48 holds; the arguments of the atoms must be names of constants.) -/
theorem C49_variables_partial (X : LPInput) (W : LPWellFormed X) (R : CmpRel) (ground incl : Bool) (T : LPTight X incl)
    (run : SolverRun) (fl : List String) (hfl : fl.Nodup) (isConst : AStr → Bool) (h : SolverRunOf X R ground incl run)
    (hconst : ∀ p ∈ fl, ∀ as, RelaxReach X R incl p as → ∀ c ∈ as, isConst c.toList = true) :
    (∃ idx, ((newStrategy X ground fl).groundVariables run isConst).2 = .ok idx ∧ idx.objects.Nodup ∧
      (∀ x, x ∈ idx.objects ↔ ∃ p as, p ∈ fl ∧ RelaxReach X R incl p as ∧ x = (p.toList, as.map String.toList)) ∧
      ∀ S, PReach X R S → ∀ p ∈ fl, ∀ as, S p as → (p.toList, as.map String.toList) ∈ idx.objects) ∨
    (((newStrategy X ground fl).groundVariables run isConst).2 = .error .representation ∧
      (¬ ∃ σ, Sat (stateInterp X.dom R (RelaxReach X R incl)) (dropNeg incl X.goal) σ) ∧
      ∀ S, PReach X R S → ∀ σ, ¬ Sat (stateInterp X.dom R S) X.goal σ) := by
  obtain ⟨ord, st, m, hord, hc, hx, hs⟩ := solve_new (fl := fl) h
  obtain ⟨e1, _, e3⟩ := C48_exact_partial X W R ord hord ground incl T st hc
  unfold LPStrategy.groundVariables
  rw [hs]
  have hget : ∀ p b, b ∈ m.get ("atom_".toList ++ String.toList p) ↔ ∃ as, RelaxReach X R incl p as ∧ b = as.map String.toList := by
    intro p b
    rw [show "atom_".toList ++ p.toList = symText (.atom p) from rfl,
      lpGet_prints hx (.atom p) (fun s' h => symText_inj_key (by simp) h) b]
    simp only [e1]
  by_cases hd : LPDer R st.rules .goal []
  · left
    simp only [if_pos hd, newStrategy]
    obtain ⟨idx, os, a1, a2, a3⟩ := addSymbols_ok (isConst := isConst) (m := m) (ps := fl.map String.toList)
      (idx := SymIndex.empty) (os := []) ⟨rfl, rfl⟩ ((List.nodup_map_iff (fun _ _ h => String.toList_inj.mp h)).mpr hfl)
      (by simp) (by
        intro p hp b hb c hcb
        obtain ⟨q, hq, rfl⟩ := List.mem_map.mp hp
        obtain ⟨as, hr, rfl⟩ := (hget q b).mp hb
        obtain ⟨c', hc', rfl⟩ := List.mem_map.mp hcb
        exact hconst q hq as hr c' hc')
    have hobj : ∀ x, x ∈ idx.objects ↔ ∃ p as, p ∈ fl ∧ RelaxReach X R incl p as ∧ x = (p.toList, as.map String.toList) := by
      rintro ⟨p, b⟩
      rw [a2.objs, mem_firstOccurrences, a3]
      simp only [List.not_mem_nil, false_or, Prod.mk.injEq]
      constructor
      · rintro ⟨hp, hb⟩
        obtain ⟨q, hq, rfl⟩ := List.mem_map.mp hp
        obtain ⟨as, hr, rfl⟩ := (hget q b).mp hb
        exact ⟨q, as, hq, hr, rfl, rfl⟩
      · rintro ⟨q, as, hq, hr, rfl, rfl⟩
        exact ⟨List.mem_map.mpr ⟨q, hq, rfl⟩, (hget q _).mpr ⟨as, hr, rfl⟩⟩
    refine ⟨idx, a1, by rw [a2.objs]; exact firstOccurrences_nodup _, hobj, ?_⟩
    intro S hS p hp as ha
    exact (hobj _).mpr ⟨p, as, hp, (e1 p as).mp ((C47_sound_partial X W R ord hord ground incl st hc S hS).1 p as ha), rfl⟩
  · right
    simp only [if_neg hd]
    exact ⟨trivial, fun hs => hd (e3.mpr hs), fun S hS σ hs => hd
      ((C47_sound_partial X W R ord hord ground incl st hc S hS).2.2 σ hs)⟩

/-- The names: a translator on which the names of the program have been normalized, none of which has an underscore next to
an underscore or a hyphen, translates the sanitized names back, as `PrintsFacts` requires. -/
theorem C49_names (cs : List (AStr × AStr)) (hp : ∀ c ∈ cs, '-' ∉ c.2 ∧ Tame (rawName c)) (c : AStr × AStr) (hc : c ∈ cs) :
    (Translator.empty.run cs).1.back (sanitize (rawName c)) = rawName c := by
  obtain ⟨h1, _⟩ := tame_run trInv_empty (by intro k v h; simp [Translator.empty, dlookup] at h) cs hp
  obtain ⟨i, hi⟩ := List.mem_iff_getElem?.mp hc
  obtain ⟨r, hr, hb⟩ := (C39_tame cs hp).1 i c hi
  have : r = sanitize (rawName c) := by
    rw [h1] at hr
    simpa [hi] using hr.symm
  rw [← this]
  exact hb

/-! ### C50: the calls on one strategy do not disturb each other -/

/-- A call on a strategy. -/
inductive LPCall where
  | actions
  | vars (isConst : AStr → Bool)
  | schema (name : AStr)

/-- An answer. -/
inductive LPAnswer where
  | actions (r : Except Err (List (AStr × List (List AStr))))
  | vars (r : Except Err (SymIndex (AStr × List AStr)))
  | schema (r : Except Err (List (List AStr)))

def LPStrategy.call (run : SolverRun) (s : LPStrategy) : LPCall → LPStrategy × LPAnswer
  | .actions => ((s.groundActions run).1, .actions (s.groundActions run).2)
  | .vars f => ((s.groundVariables run f).1, .vars (s.groundVariables run f).2)
  | .schema n => ((s.iterateGroundings run n).1, .schema (s.iterateGroundings run n).2)

/-- The strategy after a history of calls whose exceptions are caught. -/
def LPStrategy.after (run : SolverRun) (s : LPStrategy) (cs : List LPCall) : LPStrategy :=
  cs.foldl (fun s c => (s.call run c).1) s

/-- C50, full statement: after any history of calls on a new strategy, a call answers what it answers on a new strategy. -/
def C50_full : Prop := ∀ (run : SolverRun) (s : LPStrategy), s.model = none → ∀ (cs : List LPCall) (c : LPCall),
  ((s.after run cs).call run c).2 = (s.call run c).2

/-- C50 (part that holds): this is so when the goal can be reached in the relaxed problem (more generally: when the first call
would not raise ReachabilityLPUnsolvable). Missing: after ReachabilityLPUnsolvable, see below. -/
theorem C50_history_partial (run : SolverRun) (s : LPStrategy) (hs : s.model = none)
    (hu : (s.solve run).2 ≠ .error .representation) (cs : List LPCall) (c : LPCall) :
    ((s.after run cs).call run c).2 = (s.call run c).2 := by
  -- the states of the strategy: new, or with the model of the first answer
  have key : ∀ cs, s.after run cs = s ∨ (∃ m, s.after run cs = { s with model := some m } ∧ (s.solve run).2 = .ok m) := by
    intro cs
    have solve_step : ∀ t : LPStrategy, (t = s ∨ ∃ m, t = { s with model := some m } ∧ (s.solve run).2 = .ok m) →
        ((t.solve run).1 = s ∨ ∃ m, (t.solve run).1 = { s with model := some m } ∧ (s.solve run).2 = .ok m) := by
      rintro t (rfl | ⟨m, rfl, hm⟩)
      · unfold LPStrategy.solve at hu ⊢
        simp only [hs] at hu ⊢
        split
        · exact .inl rfl
        · split
          · exact .inl rfl
          · split
            · rename_i h1 _ _ h2 h3
              simp only [h2, if_pos h3] at hu
              exact absurd rfl hu
            · exact .inr ⟨_, rfl, rfl⟩
      · exact .inr ⟨m, rfl, hm⟩
    have step : ∀ (t : LPStrategy) (c : LPCall), (t = s ∨ ∃ m, t = { s with model := some m } ∧ (s.solve run).2 = .ok m) →
        ((t.call run c).1 = s ∨ ∃ m, (t.call run c).1 = { s with model := some m } ∧ (s.solve run).2 = .ok m) := by
      intro t c ht
      have h1 := solve_step t ht
      cases c with
      | actions =>
        simp only [LPStrategy.call, LPStrategy.groundActions]
        split
        · exact ht
        · split
          · rename_i e; rw [e] at h1; exact h1
          · rename_i e; rw [e] at h1; exact h1
      | vars f =>
        simp only [LPStrategy.call, LPStrategy.groundVariables]
        split
        · rename_i e; rw [e] at h1; exact h1
        · rename_i e; rw [e] at h1; exact h1
      | schema n =>
        simp only [LPStrategy.call, LPStrategy.iterateGroundings]
        split
        · rename_i e; rw [e] at h1; exact h1
        · rename_i e; rw [e] at h1; exact h1
    unfold LPStrategy.after
    suffices ∀ t : LPStrategy, (t = s ∨ ∃ m, t = { s with model := some m } ∧ (s.solve run).2 = .ok m) →
        (cs.foldl (fun s c => (s.call run c).1) t = s ∨ ∃ m, cs.foldl (fun s c => (s.call run c).1) t = { s with model := some m } ∧
          (s.solve run).2 = .ok m) from this s (.inl rfl)
    induction cs with
    | nil => exact fun t ht => ht
    | cons c cs ih => exact fun t ht => ih _ (step t c ht)
  rcases key cs with h | ⟨m, h, hm⟩
  · rw [h]
  · rw [h]
    have h1 : (LPStrategy.solve run { s with model := some m }) = ({ s with model := some m }, .ok m) := rfl
    have h2 : s.solve run = ((s.solve run).1, .ok m) := by rw [← hm]
    cases c with
    | actions =>
      simp only [LPStrategy.call, LPStrategy.groundActions, h1]
      rw [h2]
      split <;> rfl
    | vars f =>
      simp only [LPStrategy.call, LPStrategy.groundVariables, h1]
      rw [h2]
    | schema n =>
      simp only [LPStrategy.call, LPStrategy.iterateGroundings, h1]
      rw [h2]

/-! ### Examples -/

/-- `mark(?x)` with one object `b-1`. -/
def hyphenLP : LPInput := exLP ["b-1"] [] [("mark", markAct)] .top

/-- No action, and a goal that cannot be reached. -/
def hopelessLP : LPInput := exLP ["b-1"] [] [] (.atom (.user "r") [])

def hyphenRules : List LPRule :=
  [⟨.pred (.type "block") ["b-1"], []⟩,
   ⟨.pred (.type "object") ["X"], [.pred (.type "block") ["X"]]⟩,
   ⟨.pred (.action "mark") ["X"], [.pred (.type "object") ["X"]]⟩,
   ⟨.pred (.atom "q") ["X"], [.pred (.action "mark") ["X"]]⟩,
   ⟨.pred .goal [], []⟩]

def hopelessRules : List LPRule :=
  [⟨.pred (.type "block") ["b-1"], []⟩,
   ⟨.pred (.type "object") ["X"], [.pred (.type "block") ["X"]]⟩,
   ⟨.pred .goal [], [.pred (.atom "r") []]⟩]

theorem hyphenLP_create : createLP hyphenLP id true false = .ok ⟨0, hyphenRules⟩ := by rfl
theorem hopelessLP_create : createLP hopelessLP id true false = .ok ⟨0, hopelessRules⟩ := by rfl

/-- The translator after the name of the object has been normalized. -/
def hyphenTr : Translator := (Translator.empty.run [("b-1".toList, [])]).1

def hyphenLines : List AStr := ["type_block(b__1).\n".toList, "type_object(b__1).\n".toList, "action_mark(b__1).\n".toList,
  "atom_q(b__1).\n".toList, "goal.".toList]

def hopelessLines : List AStr := ["type_block(b__1).\n".toList, "type_object(b__1).".toList]

theorem isAspVar_b_1 : isAspVar "b-1" = false := by decide

theorem hyphen_facts (s : LPSym) (as : List String) : LPDer eqCmpRel hyphenRules s as ↔
    (s, as) ∈ [(.type "block", ["b-1"]), (.type "object", ["b-1"]), (.action "mark", ["b-1"]), (.atom "q", ["b-1"]), (.goal, [])] := by
  constructor
  · intro hd
    refine lpDer_least (M := fun s as => (s, as) ∈ [(.type "block", ["b-1"]), (.type "object", ["b-1"]),
      (.action "mark", ["b-1"]), (.atom "q", ["b-1"]), (.goal, [])]) ?_ hd
    intro r hr θ s args hh hb
    simp only [hyphenRules, List.mem_cons, List.not_mem_nil, or_false] at hr
    rcases hr with rfl | rfl | rfl | rfl | rfl <;> cases hh <;>
      simp [LitTrue, lpInst, isAspVar_X, isAspVar_b_1] at hb ⊢ <;> exact hb
  · have inst : ∀ (r : LPRule) s args, r ∈ hyphenRules → r.head = .pred s args →
        (∀ s' as, LPLit.pred s' as ∈ r.body → LPDer eqCmpRel hyphenRules s' (as.map (lpInst fun _ => "b-1"))) →
        (∀ c a b, LPLit.cmp c a b ∉ r.body) → LPDer eqCmpRel hyphenRules s (args.map (lpInst fun _ => "b-1")) :=
      fun r s args h1 h2 h3 h4 => .rule r _ s args h1 h2 h3 (fun c a b h => absurd h (h4 c a b))
    have f1 : LPDer eqCmpRel hyphenRules (.type "block") ["b-1"] := by
      have := inst ⟨.pred (.type "block") ["b-1"], []⟩ _ _ (by simp [hyphenRules]) rfl (by simp) (by simp)
      simpa [lpInst, isAspVar_b_1] using this
    have f2 : LPDer eqCmpRel hyphenRules (.type "object") ["b-1"] := by
      have := inst ⟨.pred (.type "object") ["X"], [.pred (.type "block") ["X"]]⟩ _ _ (by simp [hyphenRules]) rfl
        (by simpa [lpInst, isAspVar_X] using f1) (by simp)
      simpa [lpInst, isAspVar_X] using this
    have f3 : LPDer eqCmpRel hyphenRules (.action "mark") ["b-1"] := by
      have := inst ⟨.pred (.action "mark") ["X"], [.pred (.type "object") ["X"]]⟩ _ _ (by simp [hyphenRules]) rfl
        (by simpa [lpInst, isAspVar_X] using f2) (by simp)
      simpa [lpInst, isAspVar_X] using this
    have f4 : LPDer eqCmpRel hyphenRules (.atom "q") ["b-1"] := by
      have := inst ⟨.pred (.atom "q") ["X"], [.pred (.action "mark") ["X"]]⟩ _ _ (by simp [hyphenRules]) rfl
        (by simpa [lpInst, isAspVar_X] using f3) (by simp)
      simpa [lpInst, isAspVar_X] using this
    have f5 : LPDer eqCmpRel hyphenRules .goal [] := by
      have := inst ⟨.pred .goal [], []⟩ _ _ (by simp [hyphenRules]) rfl (by simp) (by simp)
      simpa using this
    intro h
    simp only [List.mem_cons, Prod.mk.injEq, List.not_mem_nil, or_false] at h
    rcases h with ⟨rfl, rfl⟩ | ⟨rfl, rfl⟩ | ⟨rfl, rfl⟩ | ⟨rfl, rfl⟩ | ⟨rfl, rfl⟩ <;> assumption

theorem hopeless_facts (s : LPSym) (as : List String) : LPDer eqCmpRel hopelessRules s as ↔
    (s, as) ∈ [(.type "block", ["b-1"]), (.type "object", ["b-1"])] := by
  constructor
  · intro hd
    refine lpDer_least (M := fun s as => (s, as) ∈ [(.type "block", ["b-1"]), (.type "object", ["b-1"])]) ?_ hd
    intro r hr θ s args hh hb
    simp only [hopelessRules, List.mem_cons, List.not_mem_nil, or_false] at hr
    rcases hr with rfl | rfl | rfl <;> cases hh <;>
      simp [LitTrue, lpInst, isAspVar_X, isAspVar_b_1] at hb ⊢ <;> exact hb
  · have f1 : LPDer eqCmpRel hopelessRules (.type "block") ["b-1"] := by
      have := LPDer.rule (R := eqCmpRel) (P := hopelessRules) ⟨.pred (.type "block") ["b-1"], []⟩ (fun _ => "b-1") _ _
        (by simp [hopelessRules]) rfl (by simp) (by simp)
      simpa [lpInst, isAspVar_b_1] using this
    have f2 : LPDer eqCmpRel hopelessRules (.type "object") ["b-1"] := by
      have := LPDer.rule (R := eqCmpRel) (P := hopelessRules) ⟨.pred (.type "object") ["X"], [.pred (.type "block") ["X"]]⟩
        (fun _ => "b-1") _ _ (by simp [hopelessRules]) rfl (by simpa [lpInst, isAspVar_X] using f1) (by simp)
      simpa [lpInst, isAspVar_X] using this
    intro h
    simp only [List.mem_cons, Prod.mk.injEq, List.not_mem_nil, or_false] at h
    rcases h with ⟨rfl, rfl⟩ | ⟨rfl, rfl⟩ <;> assumption

theorem hyphen_run : SolverRunOf hyphenLP eqCmpRel true false (.ok (hyphenTr, hyphenLines)) := by
  refine ⟨id, ⟨0, hyphenRules⟩, hyphenTr, hyphenLines, sanitize, fun _ => .refl _, hyphenLP_create, rfl, ?_⟩
  have hsym : ∀ s as, LPDer eqCmpRel hyphenRules s as → CleanName (sanitize (symText s)) ∧
      hyphenTr.back (sanitize (symText s)) = symText s := by
    intro s as hd
    rw [hyphen_facts] at hd
    simp only [List.mem_cons, Prod.mk.injEq, List.not_mem_nil, or_false] at hd
    unfold CleanName
    rcases hd with ⟨rfl, rfl⟩ | ⟨rfl, rfl⟩ | ⟨rfl, rfl⟩ | ⟨rfl, rfl⟩ | ⟨rfl, rfl⟩ <;> decide
  have harg : ∀ s as, LPDer eqCmpRel hyphenRules s as → ∀ a ∈ as, CleanName (sanitize a.toList) ∧
      hyphenTr.back (sanitize a.toList) = a.toList := by
    intro s as hd
    rw [hyphen_facts] at hd
    simp only [List.mem_cons, Prod.mk.injEq, List.not_mem_nil, or_false] at hd
    unfold CleanName
    rcases hd with ⟨rfl, rfl⟩ | ⟨rfl, rfl⟩ | ⟨rfl, rfl⟩ | ⟨rfl, rfl⟩ | ⟨rfl, rfl⟩ <;> decide
  refine ⟨?_, ?_, hsym, harg⟩
  · intro l hl
    simp only [hyphenLines, List.mem_cons, List.not_mem_nil, or_false] at hl
    rcases hl with rfl | rfl | rfl | rfl | rfl
    · exact ⟨.type "block", ["b-1"], (hyphen_facts _ _).mpr (by simp), ['\n'], .inr rfl, by decide⟩
    · exact ⟨.type "object", ["b-1"], (hyphen_facts _ _).mpr (by simp), ['\n'], .inr rfl, by decide⟩
    · exact ⟨.action "mark", ["b-1"], (hyphen_facts _ _).mpr (by simp), ['\n'], .inr rfl, by decide⟩
    · exact ⟨.atom "q", ["b-1"], (hyphen_facts _ _).mpr (by simp), ['\n'], .inr rfl, by decide⟩
    · exact ⟨.goal, [], (hyphen_facts _ _).mpr (by simp), [], .inl rfl, by decide⟩
  · intro s as hd
    rw [hyphen_facts] at hd
    simp only [List.mem_cons, Prod.mk.injEq, List.not_mem_nil, or_false] at hd
    rcases hd with ⟨rfl, rfl⟩ | ⟨rfl, rfl⟩ | ⟨rfl, rfl⟩ | ⟨rfl, rfl⟩ | ⟨rfl, rfl⟩
    · exact ⟨['\n'], .inr rfl, by decide⟩
    · exact ⟨['\n'], .inr rfl, by decide⟩
    · exact ⟨['\n'], .inr rfl, by decide⟩
    · exact ⟨['\n'], .inr rfl, by decide⟩
    · exact ⟨[], .inl rfl, by decide⟩

theorem hopeless_run : SolverRunOf hopelessLP eqCmpRel true false (.ok (hyphenTr, hopelessLines)) := by
  refine ⟨id, ⟨0, hopelessRules⟩, hyphenTr, hopelessLines, sanitize, fun _ => .refl _, hopelessLP_create, rfl, ?_⟩
  refine ⟨?_, ?_, ?_, ?_⟩
  · intro l hl
    simp only [hopelessLines, List.mem_cons, List.not_mem_nil, or_false] at hl
    rcases hl with rfl | rfl
    · exact ⟨.type "block", ["b-1"], (hopeless_facts _ _).mpr (by simp), ['\n'], .inr rfl, by decide⟩
    · exact ⟨.type "object", ["b-1"], (hopeless_facts _ _).mpr (by simp), [], .inl rfl, by decide⟩
  · intro s as hd
    rw [hopeless_facts] at hd
    simp only [List.mem_cons, Prod.mk.injEq, List.not_mem_nil, or_false] at hd
    rcases hd with ⟨rfl, rfl⟩ | ⟨rfl, rfl⟩
    · exact ⟨['\n'], .inr rfl, by decide⟩
    · exact ⟨[], .inl rfl, by decide⟩
  all_goals
    intro s as hd
    rw [hopeless_facts] at hd
    simp only [List.mem_cons, Prod.mk.injEq, List.not_mem_nil, or_false] at hd
    unfold CleanName
    rcases hd with ⟨rfl, rfl⟩ | ⟨rfl, rfl⟩ <;> decide

/-- The first example meets the hypotheses of the theorems above. -/
theorem hyphenLP_wf : LPWellFormed hyphenLP := by
  have hsc : VarScope hyphenLP (fun v => v = ⟨"?x", "object"⟩) := by
    refine ⟨?_, ?_, ?_⟩
    · rintro v rfl; exact ⟨"X", rfl, by decide⟩
    · rintro v w rfl rfl _; rfl
    · rintro v rfl; simp [hyphenLP, exLP]
  have hd := exLP_doms (objs := ["b-1"]) (init := hyphenLP.initAtoms) (acts := hyphenLP.actions) (goal := hyphenLP.goal)
  refine ⟨?_, hd.1, hd.2, ?_, ?_, ?_⟩
  · intro n s hm
    simp only [hyphenLP, exLP, List.map_cons, List.map_nil, List.mem_cons, Prod.mk.injEq, List.not_mem_nil, or_false] at hm
    obtain ⟨rfl, _⟩ := hm
    exact ⟨"b-1", rfl, rfl, by decide⟩
  · intro p ts hm
    simp [hyphenLP, exLP] at hm
  · intro n a hm
    simp only [hyphenLP, exLP, List.mem_singleton, Prod.mk.injEq] at hm
    obtain ⟨rfl, rfl⟩ := hm
    refine ⟨_, hsc, by simp [markAct], ⟨trivial, trivial, by simp [markAct, FreeF]⟩, ?_⟩
    intro e he
    simp only [markAct, List.mem_singleton] at he
    subst he
    exact ⟨⟨trivial, trivial, by simp [FreeF]⟩, by simp [FlatT], by simp [markAct]⟩
  · exact ⟨_, hsc, ⟨trivial, trivial, by simp [hyphenLP, exLP, FreeF]⟩⟩

theorem hyphenLP_tight : LPTight hyphenLP false := by
  refine ⟨by simp [hyphenLP, exLP], ?_, ⟨trivial, by simp⟩⟩
  intro n a hm
  simp only [hyphenLP, exLP, List.mem_singleton, Prod.mk.injEq] at hm
  obtain ⟨rfl, rfl⟩ := hm
  refine ⟨⟨trivial, by simp⟩, ?_⟩
  intro e he
  simp only [markAct, List.mem_singleton] at he
  subst he
  exact ⟨trivial, by simp⟩

/-- So the state variables of the first example are the ones expected. -/
example : ∀ x, x ∈ (match ((newStrategy hyphenLP true ["q"]).groundVariables (.ok (hyphenTr, hyphenLines))
      (fun c => c = "b-1".toList)).2 with | .ok idx => idx.objects | .error _ => []) ↔
    ∃ p as, p ∈ ["q"] ∧ RelaxReach hyphenLP eqCmpRel false p as ∧ x = (p.toList, as.map String.toList) := by
  have hex := C48_exact_partial hyphenLP hyphenLP_wf eqCmpRel id (fun _ => .refl _) true false hyphenLP_tight _ hyphenLP_create
  rcases C49_variables_partial hyphenLP hyphenLP_wf eqCmpRel true false hyphenLP_tight _ ["q"] (by simp)
    (fun c => c = "b-1".toList) hyphen_run (by
      intro p hp as hr
      rw [← hex.1, hyphen_facts] at hr
      simp only [List.mem_cons, Prod.mk.injEq, List.not_mem_nil, or_false, reduceCtorEq, false_and, false_or] at hr
      obtain ⟨_, rfl⟩ := hr
      simp) with ⟨idx, h, _, h2, _⟩ | ⟨h, hn, _⟩
  · rw [h]
    exact h2
  · exact absurd ⟨fun _ => "", trivial⟩ hn

/-- The strategy on the first example: the one grounding of `mark` is found, and its name has its hyphen back. -/
example : ((newStrategy hyphenLP true ["q"]).groundActions (.ok (hyphenTr, hyphenLines))).2 =
    .ok [("mark".toList, [["b-1".toList]])] := by rfl

/-- The code violates C50: on a problem whose goal cannot be reached, the first call raises ReachabilityLPUnsolvable, but the
model has been stored by then, and the next call returns an answer. -/
theorem C50_refuted : ¬ C50_full := by
  intro H
  have := H (.ok (hyphenTr, hopelessLines)) (newStrategy hopelessLP true []) rfl [.actions] .actions
  have h1 : ((newStrategy hopelessLP true []).call (.ok (hyphenTr, hopelessLines)) .actions).2 =
    .actions (.error .representation) := rfl
  have h2 : (((newStrategy hopelessLP true []).after (.ok (hyphenTr, hopelessLines)) [.actions]).call
    (.ok (hyphenTr, hopelessLines)) .actions).2 = .actions (.ok []) := rfl
  rw [h1, h2] at this
  cases this

/-! ### `iterate_over_schema_groundings` -/

/-- C50, second full statement: iterating over the groundings of a schema yields the groundings that `ground_actions` gives
for it. -/
def C50_iterate_full : Prop := ∀ (X : LPInput) (R : CmpRel) (incl : Bool) (run : SolverRun) (fl : List String) (n : String) gs g,
  SolverRunOf X R true incl run → ((newStrategy X true fl).groundActions run).2 = .ok gs → (n.toList, g) ∈ gs →
  ∃ g', ((newStrategy X true fl).iterateGroundings run n.toList).2 = .ok g' ∧ ∀ b, b ∈ g' ↔ b ∈ g

/-- The code violates it: the schema is looked up without the prefix that its symbol has in the model. -/
theorem C50_iterate_refuted : ¬ C50_iterate_full := by
  intro H
  obtain ⟨g', h1, h2⟩ := H hyphenLP eqCmpRel false _ ["q"] "mark" [("mark".toList, [["b-1".toList]])] _ hyphen_run rfl
    (List.mem_singleton.mpr rfl)
  have h3 : ((newStrategy hyphenLP true ["q"]).iterateGroundings (.ok (hyphenTr, hyphenLines)) "mark".toList).2 = .ok [] := rfl
  rw [h3] at h1
  cases h1
  exact absurd ((h2 ["b-1".toList]).mpr (by simp)) (by simp)

/-- In fact nothing at all is iterated over, whatever the problem, unless the name of the schema looks like a symbol of the
program. -/
theorem C50_iterate_empty (X : LPInput) (R : CmpRel) (ground incl : Bool) (run : SolverRun) (fl : List String) (n : String)
    (h : SolverRunOf X R ground incl run) (hn : ∀ s, symText s ≠ n.toList) :
    ((newStrategy X ground fl).iterateGroundings run n.toList).2 = .ok [] ∨
    ((newStrategy X ground fl).iterateGroundings run n.toList).2 = .error .representation := by
  obtain ⟨ord, st, m, hord, hc, hx, hs⟩ := solve_new (fl := fl) h
  unfold LPStrategy.iterateGroundings
  rw [hs]
  by_cases hd : LPDer R st.rules .goal []
  · left
    simp only [if_pos hd, Except.ok.injEq]
    refine List.eq_nil_iff_forall_not_mem.mpr fun b hb => ?_
    rw [mem_lpGet, hx] at hb
    obtain ⟨s, as, _, he⟩ := hb
    simp only [Prod.mk.injEq] at he
    exact hn s he.1.symm
  · right
    simp only [if_neg hd]

example : ∀ s, symText s ≠ "mark".toList := by
  intro s
  rcases symText_cases s with ⟨x, rfl, e⟩ | ⟨x, rfl, e⟩ | ⟨x, rfl, e⟩ | ⟨x, rfl, e⟩ | ⟨rfl, e⟩ <;> rw [e] <;> clear e <;>
    rw [show "mark".toList = ['m', 'a', 'r', 'k'] from rfl] <;> simp

end Tarski

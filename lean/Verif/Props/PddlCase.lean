import Verif.PddlCaseFile
/-! C113: reading files with `case_insensitive=True`.

Two texts are the same up to case when they are equal after `str.lower()`. The names that the reader keeps as they are
written are the names of the domain, of the problem and of the actions. -/
namespace Tarski

/-- Texts that differ in the case of letters only. -/
def SameUpToCase (t u : Text) : Prop := t.map lowerC = u.map lowerC

/-- Problems that differ in the case of the names of the domain, the problem and the actions only. -/
structure SameButNames (p q : PProblem) : Prop where
  name : lowerS p.name = lowerS q.name
  domainName : lowerS p.domainName = lowerS q.domainName
  lang : p.lang = q.lang
  init : p.init = q.init
  goal : p.goal = q.goal
  derived : p.derived = q.derived
  metric : p.metric = q.metric
  actions : List.Forall₂ (fun a b : PAction => lowerS a.name = lowerS b.name ∧ a.params = b.params ∧ a.pre = b.pre ∧
    a.effs = b.effs ∧ a.cost = b.cost) p.actions q.actions

/-- The names of the actions are different whatever their case. -/
def DistinctActions (p : PProblem) : Prop := (p.actions.map (fun a => lowerS a.name)).Nodup

/-! ### Helpers -/

theorem sameActions_of (as bs : List PAction) (h : as.map PAction.lowerName = bs.map PAction.lowerName) :
    List.Forall₂ (fun a b : PAction => lowerS a.name = lowerS b.name ∧ a.params = b.params ∧ a.pre = b.pre ∧
      a.effs = b.effs ∧ a.cost = b.cost) as bs := by
  induction as generalizing bs with
  | nil => cases bs with
    | nil => exact .nil
    | cons b bs => simp at h
  | cons a as ih =>
    cases bs with
    | nil => simp at h
    | cons b bs =>
      simp only [List.map_cons, List.cons.injEq, PAction.lowerName, PAction.mk.injEq] at h
      exact .cons h.1 (ih bs h.2)

theorem sameButNames_of (p q : PProblem) (h : p.lowerNames = q.lowerNames) : SameButNames p q := by
  simp only [PProblem.lowerNames, PProblem.mk.injEq] at h
  obtain ⟨h1, h2, h3, h4, h5, h6, h7, h8⟩ := h
  exact ⟨h1, h2, h3, h4, h5, h7, h8, sameActions_of _ _ h6⟩

theorem lexFile_lower (t : Text) : lexFile true (t.map lowerC) = (lexFile true t).map (List.map PTok.lower) :=
  lexGoLC_lower .idle t

theorem lexFile_same (t : Text) (h : t.map lowerC = t) : lexFile true t = lexFile false t :=
  lexGoLC_eq .idle t h trivial

theorem lower_idem (t : Text) : (t.map lowerC).map lowerC = t.map lowerC := by
  simp [List.map_map, Function.comp_def, lowerC_lowerC]

theorem sxTree_file (t : Text) : sxTree (lexFile true (t.map lowerC)) = (sxTree (lexFile true t)).map SX.lower := by
  rw [lexFile_lower, sxTree_lower]

theorem parse_up (D0 : PDecls) (dom : Text) (Q : PDomain) (h : parseDomain true D0 (dom.map lowerC) = .ok Q) :
    ∃ P, parseDomain true D0 dom = .ok P ∧ Q = P.lowerNames := by
  unfold parseDomain at h ⊢
  rw [sxTree_file] at h
  cases ht : sxTree (lexFile true dom) with
  | error e => rw [ht] at h; cases h
  | ok x => rw [ht] at h; exact readDomain_up D0 x Q h

theorem parse_down (D0 : PDecls) (dom : Text) (P : PDomain) (h : parseDomain true D0 dom = .ok P)
    (hn : (P.actions.map (fun a => lowerS a.name)).Nodup) : parseDomain true D0 (dom.map lowerC) = .ok P.lowerNames := by
  unfold parseDomain at h ⊢
  rw [sxTree_file]
  cases ht : sxTree (lexFile true dom) with
  | error e => rw [ht] at h; cases h
  | ok x => rw [ht] at h; exact readDomain_down D0 x P h hn

theorem readInstance_actions (P : PDomain) (y : SX) (p : PProblem) (h : readInstance P y = .ok p) :
    p.actions = P.actions := by
  unfold readInstance at h
  (repeat' split at h) <;> cases h
  rfl

theorem files_up (D0 : PDecls) (dom inst : Text) (q : PProblem)
    (h : readProblemFiles true D0 (dom.map lowerC) (inst.map lowerC) = .ok q) :
    ∃ p, readProblemFiles true D0 dom inst = .ok p ∧ q = p.lowerNames := by
  unfold readProblemFiles at h ⊢
  cases h1 : parseDomain true D0 (dom.map lowerC) with
  | error e => rw [h1] at h; cases h
  | ok Q =>
    obtain ⟨P, hP, rfl⟩ := parse_up D0 dom Q h1
    rw [h1] at h; simp only [sxTree_file] at h
    rw [hP]
    cases ht : sxTree (lexFile true inst) with
    | error e => rw [ht] at h; cases h
    | ok y =>
      rw [ht] at h; simp only [Except.map, readInstance_lower] at h
      cases hi : readInstance P y with
      | error e => rw [hi] at h; cases h
      | ok p =>
        rw [hi] at h; simp only [Except.map, Except.ok.injEq] at h
        exact ⟨p, by simp only [hi], h.symm⟩

theorem files_down (D0 : PDecls) (dom inst : Text) (p : PProblem)
    (h : readProblemFiles true D0 dom inst = .ok p) (hn : DistinctActions p) :
    readProblemFiles true D0 (dom.map lowerC) (inst.map lowerC) = .ok p.lowerNames := by
  unfold readProblemFiles at h ⊢
  cases h1 : parseDomain true D0 dom with
  | error e => rw [h1] at h; cases h
  | ok P =>
    rw [h1] at h
    cases ht : sxTree (lexFile true inst) with
    | error e => simp only [ht] at h; cases h
    | ok y =>
      simp only [ht] at h
      have ha := readInstance_actions P y p h
      rw [parse_down D0 dom P h1 (by rw [← ha]; exact hn)]
      simp only [sxTree_file, ht, Except.map, readInstance_lower, h]

/-! ### The property -/

/-- **C113** (tokens). With the option, files that differ in case only have the same tokens, up to the case of the names
and variables; none is accepted and the other one rejected. -/
theorem C113_tokens (t u : Text) (h : SameUpToCase t u) :
    (lexFile true t).map (List.map PTok.lower) = (lexFile true u).map (List.map PTok.lower) := by
  rw [← lexFile_lower, ← lexFile_lower, h]

/-- **C113** (files). With the option, if two files are read into a problem whose actions have different names whatever
their case, then any files that differ from them in case only are read as well, into a problem that differs from the first
one in the case of the names of the domain, the problem and the actions only. -/
theorem C113_case_insensitive_partial (D0 : PDecls) (dom inst dom' inst' : Text) (hd : SameUpToCase dom dom')
    (hi : SameUpToCase inst inst') (p : PProblem) (h : readProblemFiles true D0 dom inst = .ok p) (hn : DistinctActions p) :
    ∃ q, readProblemFiles true D0 dom' inst' = .ok q ∧ SameButNames p q := by
  have h1 := files_down D0 dom inst p h hn
  rw [hd, hi] at h1
  obtain ⟨q, hq, e⟩ := files_up D0 dom' inst' _ h1
  exact ⟨q, hq, sameButNames_of p q e⟩

/-- **C113** (two readings). If both pairs of files are read, the problems are the same up to the case of those names, as
long as one of them has different action names whatever their case. -/
theorem C113_same_problem (D0 : PDecls) (dom inst dom' inst' : Text) (hd : SameUpToCase dom dom')
    (hi : SameUpToCase inst inst') (p q : PProblem) (hp : readProblemFiles true D0 dom inst = .ok p)
    (hq : readProblemFiles true D0 dom' inst' = .ok q) (hn : DistinctActions p) : SameButNames p q := by
  obtain ⟨q', hq', h⟩ := C113_case_insensitive_partial D0 dom inst dom' inst' hd hi p hp hn
  rw [hq] at hq'; cases hq'; exact h

/-- **C113** (lowercased files). What the option reads from two files is what the reader without the option reads from the
lowercased files, up to the case of the names of the domain, the problem and the actions, which the lowercased files have in
lower case. -/
theorem C113_lowercased (D0 : PDecls) (dom inst : Text) (p : PProblem) (h : readProblemFiles true D0 dom inst = .ok p)
    (hn : DistinctActions p) :
    readProblemFiles false D0 (dom.map lowerC) (inst.map lowerC) = .ok p.lowerNames ∧ SameButNames p p.lowerNames := by
  have h1 := files_down D0 dom inst p h hn
  refine ⟨?_, sameButNames_of _ _ ?_⟩
  · rw [← h1]
    unfold readProblemFiles parseDomain
    rw [lexFile_same _ (lower_idem dom), lexFile_same _ (lower_idem inst)]
  · simp [PProblem.lowerNames, PAction.lowerName, Function.comp_def, lowerS_idem]

/-- **C113** (conversely). If the lowercased files are read without the option, the files are read with it. -/
theorem C113_lowercased_conv (D0 : PDecls) (dom inst : Text) (q : PProblem)
    (h : readProblemFiles false D0 (dom.map lowerC) (inst.map lowerC) = .ok q) :
    ∃ p, readProblemFiles true D0 dom inst = .ok p ∧ SameButNames p q ∧ q = p.lowerNames := by
  have e : readProblemFiles true D0 (dom.map lowerC) (inst.map lowerC) = .ok q := by
    rw [← h]
    unfold readProblemFiles parseDomain
    rw [lexFile_same _ (lower_idem dom), lexFile_same _ (lower_idem inst)]
  obtain ⟨p, hp, rfl⟩ := files_up D0 dom inst q e
  refine ⟨p, hp, sameButNames_of _ _ ?_, rfl⟩
  simp [PProblem.lowerNames, PAction.lowerName, Function.comp_def, lowerS_idem]

/-- A file in lower case is read in the same way with and without the option. -/
theorem C113_lower_files (D0 : PDecls) (dom inst : Text) (hd : dom.map lowerC = dom) (hi : inst.map lowerC = inst) :
    readProblemFiles true D0 dom inst = readProblemFiles false D0 dom inst := by
  unfold readProblemFiles parseDomain
  rw [lexFile_same _ hd, lexFile_same _ hi]

/-- A language without theories and declarations. -/
def bareLang : PDecls := ⟨true, false, false, [], [], [], []⟩

/-- "The whole PDDL file will be lowercased" (io/fstrips.py:62), and files that differ in case only are the same file. -/
def CaseInsensitive : Prop := ∀ (D0 : PDecls) (dom dom' : Text), SameUpToCase dom dom' →
  parseDomain true D0 dom = parseDomain true D0 dom'

/-- The option changes nothing about strings. -/
def CaseInsensitiveStrings : Prop := ∀ (D0 : PDecls) (dom : Text) (P : PDomain),
  parseDomain true D0 dom = .ok P → parseDomainString true D0 dom = .ok P

/-! ### Examples and counterexamples -/

def exDomText : Text := "(define(Domain D)(:predicates(P))(:Action Go :parameters() :Precondition(P) :effect(NOT(p))))".toList
def exDomLower : Text := "(define(domain d)(:predicates(p))(:action go :parameters() :precondition(p) :effect(not(p))))".toList
def exInstText : Text := "(define(Problem X)(:DOMAIN D)(:init(P))(:Goal(Not(P))))".toList
def exInstLower : Text := "(define(problem x)(:domain d)(:init(p))(:goal(not(p))))".toList

/-- What is read from the two files: names keep their case, symbols do not. -/
def exCaseProblem : PProblem where
  name := "X"
  domainName := "D"
  lang := { bareLang with preds := [("p", [])] }
  init := { MState.empty with preds := [(["p"], [[]])] }
  goal := some (neg (.atom (.user "p") []))
  actions := [⟨"Go", [], .atom (.user "p") [], [.del .top (.user "p") []], none⟩]
  derived := []
  metric := none

set_option maxRecDepth 100000 in
theorem exDom_tokens : lexFile true exDomText = .ok [.lpar, .kw .kDefine, .lpar, .kw .kDomain, .name "D", .rpar, .lpar,
    .ckw .predicates, .lpar, .name "P", .rpar, .rpar, .lpar, .ckw .action, .name "Go", .ckw .parameters, .lpar, .rpar,
    .ckw .precondition, .lpar, .name "P", .rpar, .ckw .effect, .lpar, .kw .kNot, .lpar, .name "p", .rpar, .rpar, .rpar,
    .rpar] := by decide +kernel

set_option maxRecDepth 100000 in
theorem exInst_tokens : lexFile true exInstText = .ok [.lpar, .kw .kDefine, .lpar, .kw .kProblem, .name "X", .rpar, .lpar,
    .ckw .domain, .name "D", .rpar, .lpar, .ckw .init, .lpar, .name "P", .rpar, .rpar, .lpar, .ckw .goal, .lpar, .kw .kNot,
    .lpar, .name "P", .rpar, .rpar, .rpar, .rpar] := by decide +kernel

theorem exFiles_read : readProblemFiles true bareLang exDomText exInstText = .ok exCaseProblem := by
  unfold readProblemFiles parseDomain
  rw [exDom_tokens, exInst_tokens]
  rfl

/-- The hypotheses of the theorems above are met by these files. -/
example : SameUpToCase exDomText exDomLower ∧ SameUpToCase exInstText exInstLower ∧
    readProblemFiles true bareLang exDomText exInstText = .ok exCaseProblem ∧ DistinctActions exCaseProblem :=
  ⟨by unfold SameUpToCase exDomText exDomLower; decide +kernel, by unfold SameUpToCase exInstText exInstLower; decide +kernel,
    exFiles_read, by unfold DistinctActions exCaseProblem; decide⟩
example : ∃ q, readProblemFiles true bareLang exDomLower exInstLower = .ok q ∧ SameButNames exCaseProblem q :=
  C113_case_insensitive_partial bareLang exDomText exInstText _ _ (by unfold SameUpToCase exDomText exDomLower; decide +kernel)
    (by unfold SameUpToCase exInstText exInstLower; decide +kernel) exCaseProblem exFiles_read (by unfold DistinctActions exCaseProblem; decide)
example : readProblemFiles false bareLang (exDomText.map lowerC) (exInstText.map lowerC) = .ok exCaseProblem.lowerNames :=
  (C113_lowercased bareLang _ _ _ exFiles_read (by unfold DistinctActions exCaseProblem; decide)).1

/-- **C113** (full statement, refuted). With the option, the files `(define (domain D))` and `(define (domain d))` give
problems whose domains have different names: the documentation says that the whole file is lowercased, but names of
domains, problems and actions keep their case. -/
theorem C113_case_insensitive_refuted : ¬ CaseInsensitive := by
  intro h
  have h1 := h bareLang "(define (domain D))".toList "(define (domain d))".toList (by unfold SameUpToCase; decide +kernel)
  have e1 : lexFile true "(define (domain D))".toList =
      .ok [.lpar, .kw .kDefine, .lpar, .kw .kDomain, .name "D", .rpar, .rpar] := by decide +kernel
  have e2 : lexFile true "(define (domain d))".toList =
      .ok [.lpar, .kw .kDefine, .lpar, .kw .kDomain, .name "d", .rpar, .rpar] := by decide +kernel
  have h2 : Except.map PDomain.name (parseDomain true bareLang "(define (domain D))".toList) =
      Except.map PDomain.name (parseDomain true bareLang "(define (domain d))".toList) := by rw [h1]
  have e3 : Except.map PDomain.name (parseDomain true bareLang "(define (domain D))".toList) = .ok "D" := by
    unfold parseDomain; rw [e1]; rfl
  have e4 : Except.map PDomain.name (parseDomain true bareLang "(define (domain d))".toList) = .ok "d" := by
    unfold parseDomain; rw [e2]; rfl
  rw [e3, e4] at h2
  exact absurd h2 (by decide)

/-- **C113** (actions, refuted). The hypothesis on the names of the actions is needed: with the option, a file may declare
the actions `A` and `a`, while the lowercased file is rejected as it declares the same action twice. -/
theorem C113_action_names_refuted : ¬ ∀ (D0 : PDecls) (dom : Text) (P : PDomain), parseDomain true D0 dom = .ok P →
    ∃ Q, parseDomain true D0 (dom.map lowerC) = .ok Q := by
  intro h
  have e1 : lexFile true "(define(domain d)(:action A :parameters() :precondition() :effect(and))(:action a :parameters() :precondition() :effect(and)))".toList =
      .ok [.lpar, .kw .kDefine, .lpar, .kw .kDomain, .name "d", .rpar, .lpar, .ckw .action, .name "A", .ckw .parameters, .lpar,
        .rpar, .ckw .precondition, .lpar, .rpar, .ckw .effect, .lpar, .kw .kAnd, .rpar, .rpar, .lpar, .ckw .action, .name "a",
        .ckw .parameters, .lpar, .rpar, .ckw .precondition, .lpar, .rpar, .ckw .effect, .lpar, .kw .kAnd, .rpar, .rpar,
        .rpar] := by decide +kernel
  have e2 : parseDomain true bareLang "(define(domain d)(:action A :parameters() :precondition() :effect(and))(:action a :parameters() :precondition() :effect(and)))".toList =
      .ok ⟨"d", bareLang, [⟨"A", [], .top, [], none⟩, ⟨"a", [], .top, [], none⟩]⟩ := by
    unfold parseDomain; rw [e1]; rfl
  obtain ⟨Q, hQ⟩ := h bareLang _ _ e2
  unfold parseDomain at hQ
  rw [lexFile_lower, e1] at hQ
  have e3 : lowerS "a" = "a" := by decide +kernel
  have e4 : lowerS "A" = "a" := by decide +kernel
  have e5 : lowerS "d" = "d" := by decide +kernel
  simp only [Except.map, List.map_cons, List.map_nil, tl_lpar, tl_kw, tl_name, tl_rpar, tl_ckw, e3, e4, e5] at hQ
  exact absurd hQ (by nofun)

/-- **C113** (strings, refuted). The option has no effect on `parse_domain_string`: `(define (DOMAIN d))` is read from a
file with the option, but not from a string. -/
theorem C113_strings_refuted : ¬ CaseInsensitiveStrings := by
  intro h
  have e1 : lexFile true "(define (DOMAIN d))".toList =
      .ok [.lpar, .kw .kDefine, .lpar, .kw .kDomain, .name "d", .rpar, .rpar] := by decide +kernel
  have e2 : parseDomain true bareLang "(define (DOMAIN d))".toList = .ok ⟨"d", bareLang, []⟩ := by
    unfold parseDomain; rw [e1]; rfl
  have e3 : lexString true "(define (DOMAIN d))".toList =
      .ok [.lpar, .kw .kDefine, .lpar, .name "DOMAIN", .name "d", .rpar, .rpar] := by decide +kernel
  have h2 := h bareLang _ _ e2
  unfold parseDomainString at h2
  rw [e3] at h2
  exact absurd h2 (by nofun)

/-- **C113** (more words are reserved, refuted). A file that is read without the option need not be read with it: `Max` is
a name without it and a reserved word with it. -/
theorem C113_option_accepts_more_refuted : ¬ ∀ (D0 : PDecls) (dom : Text) (P : PDomain), parseDomain false D0 dom = .ok P →
    ∃ Q, parseDomain true D0 dom = .ok Q := by
  intro h
  have e1 : lexFile false "(define (domain d)(:predicates(Max)))".toList =
      .ok [.lpar, .kw .kDefine, .lpar, .kw .kDomain, .name "d", .rpar, .lpar, .ckw .predicates, .lpar, .name "Max", .rpar,
        .rpar, .rpar] := by decide +kernel
  have e2 : parseDomain false bareLang "(define (domain d)(:predicates(Max)))".toList =
      .ok ⟨"d", { bareLang with preds := [("max", [])] }, []⟩ := by unfold parseDomain; rw [e1]; rfl
  have e3 : lexFile true "(define (domain d)(:predicates(Max)))".toList =
      .ok [.lpar, .kw .kDefine, .lpar, .kw .kDomain, .name "d", .rpar, .lpar, .ckw .predicates, .lpar, .kw .kMax, .rpar,
        .rpar, .rpar] := by decide +kernel
  obtain ⟨Q, hQ⟩ := h bareLang _ _ e2
  unfold parseDomain at hQ
  rw [e3] at hQ
  exact absurd hQ (by nofun)

end Tarski

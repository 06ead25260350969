import Mathlib.Tactic.Common
import Mathlib.Order.Basic
import Verif.Files
import Verif.Props.AspText
/-! C111: files. -/
namespace Tarski

/-! ### Lines of files -/

theorem iterLines_line (l : AStr) (h : '\n' ∉ l) (s : AStr) : iterLines (l ++ '\n' :: s) = (l ++ ['\n']) :: iterLines s := by
  induction l with
  | nil => simp [iterLines]
  | cons c cs ih =>
    have hc : c ≠ '\n' := fun e => h (by simp [e])
    rw [List.cons_append, iterLines, if_neg hc, ih (fun e => h (by simp [e]))]
    rfl

theorem iterLines_last (l : AStr) (h : '\n' ∉ l) : iterLines l = if l = [] then [] else [l] := by
  induction l with
  | nil => rfl
  | cons c cs ih =>
    have hc : c ≠ '\n' := fun e => h (by simp [e])
    rw [iterLines, if_neg hc, ih (fun e => h (by simp [e]))]
    by_cases e : cs = [] <;> simp [e]

theorem iterLines_lines (ls : List AStr) (h : ∀ l ∈ ls, '\n' ∉ l) (last : AStr) (hl : '\n' ∉ last) :
    iterLines (ls.flatMap (· ++ ['\n']) ++ last) = ls.map (· ++ ['\n']) ++ (if last = [] then [] else [last]) := by
  induction ls with
  | nil => simp [iterLines_last last hl]
  | cons l ls ih =>
    have e : (l :: ls).flatMap (· ++ ['\n']) ++ last = l ++ '\n' :: (ls.flatMap (· ++ ['\n']) ++ last) := by simp
    rw [e, iterLines_line l (h l (by simp)), ih (fun x hx => h x (by simp [hx]))]
    rfl

theorem rstrip_line (l : AStr) (h : '\n' ∉ l) (e : AStr) (he : e = [] ∨ e = ['\n']) : pyRstrip ['\n'] (l ++ e) = l := by
  have base : pyRstrip ['\n'] l = l := by
    simp only [pyRstrip]
    have : l.reverse.dropWhile (fun c => ['\n'].contains c) = l.reverse := by
      cases hr : l.reverse with
      | nil => rfl
      | cons c cs =>
        have hc : c ≠ '\n' := fun e => h (by rw [← List.mem_reverse, hr, e]; simp)
        simp [hc]
    rw [this, List.reverse_reverse]
  rcases he with rfl | rfl
  · rw [List.append_nil, base]
  · rw [pyRstrip_snoc _ (by simp), base]

/-- C111: reading a file of lines, the last one terminated or not, yields these lines, and counting them gives their number. -/
theorem C111_lines (fs : FileSys) (name : AStr) (ls : List AStr) (last : AStr) (h : ∀ l ∈ ls, '\n' ∉ l) (hl : '\n' ∉ last)
    (hf : fs name = some (.file (ls.flatMap (· ++ ['\n']) ++ last))) :
    readFile fs name = some (ls ++ if last = [] then [] else [last]) ∧
    countFileLines fs name = some (ls.length + if last = [] then 0 else 1) := by
  have hcount : ∀ (xs : List AStr) (n : Nat), xs.foldl (fun i _ => i + 1) n = n + xs.length := by
    intro xs
    induction xs with
    | nil => simp
    | cons x xs ih => intro n; rw [List.foldl_cons, ih, List.length_cons]; omega
  constructor
  · simp only [readFile, hf]
    rw [iterLines_lines ls h last hl, List.map_append, List.map_map]
    congr 2
    · have : ∀ l ∈ ls, (pyRstrip ['\n'] ∘ fun x => x ++ ['\n']) l = l := fun l hm => rstrip_line l (h l hm) _ (.inr rfl)
      exact (List.map_congr_left this).trans (List.map_id' ls)
    · by_cases e : last = []
      · simp [e]
      · have := rstrip_line last hl [] (.inl rfl)
        rw [List.append_nil] at this
        simp [e, this]
  · simp only [countFileLines, hf]
    rw [iterLines_lines ls h last hl, hcount, List.length_append, List.length_map]
    by_cases e : last = [] <;> simp [e]

example : readFile (fun _ => some (.file "a\n\nb".toList)) [] = some ["a".toList, [], "b".toList] := by decide

/-! ### Removing files -/

/-- C111: `silentremove` removes a file, does not complain if there is none, refuses directories, and touches nothing else. -/
theorem C111_silentremove (fs : FileSys) (n : AStr) :
    ((silentRemove fs n).2 = true ↔ fs n ≠ some .dir) ∧ ((silentRemove fs n).2 = true → (silentRemove fs n).1 n = none) ∧
    ((silentRemove fs n).2 = false → (silentRemove fs n).1 = fs) ∧ (∀ p, p ≠ n → (silentRemove fs n).1 p = fs p) := by
  unfold silentRemove
  cases h : fs n with
  | none => simp [h]
  | some e =>
    cases e with
    | file c =>
      refine ⟨by simp, by simp [fsPut], by simp, ?_⟩
      intro p hp
      simp [fsPut, hp]
    | dir => simp

theorem silentRemove_put (g : FileSys) (n c : AStr) (h : g n = none) : silentRemove (fsPut g n (some (.file c))) n = (g, true) := by
  have e : fsPut g n (some (.file c)) n = some (.file c) := by simp [fsPut]
  simp only [silentRemove, e]
  refine Prod.ext ?_ rfl
  funext q
  by_cases hq : q = n
  · subst hq; simp [fsPut, h]
  · simp [fsPut, hq]

/-! ### The temporary files of the solver -/

/-- The names are new and distinct (`tempfile`). -/
structure TempNames.Fresh (N : TempNames) (fs : FileSys) : Prop where
  theory : fs N.theory = none
  model : fs N.model = none
  log : fs N.log = none
  tm : N.theory ≠ N.model
  tl : N.theory ≠ N.log
  ml : N.model ≠ N.log
  ne : N.model ≠ []

theorem runClingo_frame (fs : FileSys) (found : Bool) (N : TempNames) (solver : AStr → CmdRun) (theory : AStr) (p : AStr)
    (h1 : p ≠ N.theory) (h2 : p ≠ N.model) (h3 : p ≠ N.log) : (runClingo fs found N solver theory).1 p = fs p := by
  have key : (executeCmd (fsPut (fsPut (fsPut fs N.theory (some (.file theory))) N.model (some (.file []))) N.log (some (.file [])))
      (solver theory) N.model N.log).1 p = fs p := by
    simp only [executeCmd]
    split <;> simp [fsPut, h1, h2, h3]
  simp only [runClingo]
  split
  · rfl
  · split
    · exact key
    · split
      · exact key
      · split <;> exact key

theorem runClingo_names {fs : FileSys} {found : Bool} {N : TempNames} {solver : AStr → CmdRun} {theory : AStr} {m t : AStr}
    (h : (runClingo fs found N solver theory).2 = .ok (m, t)) : m = N.model ∧ t = N.theory := by
  simp only [runClingo] at h
  split at h
  · cases h
  · split at h
    · cases h; exact ⟨rfl, rfl⟩
    · split at h
      · cases h
      · split at h <;> cases h

/-- C111: whatever the solver does, no file other than the three temporary ones is created, changed or removed. -/
theorem C111_frame (fs : FileSys) (found : Bool) (N : TempNames) (solver : AStr → CmdRun) (rules : List LPRuleT) (tr : Translator) (p : AStr)
    (h1 : p ≠ N.theory) (h2 : p ≠ N.model) (h3 : p ≠ N.log) : (solveWithFiles fs found N solver rules tr).1 p = fs p := by
  have hf := runClingo_frame fs found N solver (theoryFile rules []) p h1 h2 h3
  have hn := @runClingo_names fs found N solver (theoryFile rules [])
  simp only [solveWithFiles]
  generalize runClingo fs found N solver (theoryFile rules []) = r at hf hn
  obtain ⟨fs1, r⟩ := r
  cases r with
  | error e => exact hf
  | ok mt =>
    obtain ⟨m, t⟩ := mt
    obtain ⟨rfl, rfl⟩ := hn rfl
    dsimp only at hf ⊢
    split
    · exact hf
    · have s1 := (C111_silentremove fs1 N.model).2.2.2 p h2
      split
      · rename_i fs2 e; rw [e] at s1; exact s1.trans hf
      · rename_i fs2 e
        rw [e] at s1
        have s2 := (C111_silentremove fs2 N.theory).2.2.2 p h1
        split
        · rename_i fs3 e'; rw [e'] at s2; exact s2.trans (s1.trans hf)
        · rename_i fs3 e'
          rw [e'] at s2
          split <;> exact s2.trans (s1.trans hf)

/-- The full statement: when the model has been computed, the files are as before. -/
def C111_clean_full : Prop := ∀ (fs : FileSys) (found : Bool) (N : TempNames) (solver : AStr → CmdRun) (rules : List LPRuleT) (tr : Translator),
  N.Fresh fs → (solveWithFiles fs found N solver rules tr).1 = fs

/-- C111, proved part: if the solver succeeds without a message and its answer can be read, then the temporary files are gone, the other files
are as before, and the result is the model in the answer of the solver on the rules, if the goal is in it. -/
theorem C111_clean_partial (fs : FileSys) (N : TempNames) (hN : N.Fresh fs) (solver : AStr → CmdRun) (rules : List LPRuleT) (tr : Translator)
    (out : AStr) (hs : solver (theoryFile rules []) = ⟨0, out, []⟩) (m : LPModel) (hm : parseModel tr (iterLines out) = .ok m) :
    solveWithFiles fs true N solver rules tr =
      (fs, if (m.get "goal".toList).dedup.length = 1 then .ok m else .error .unsolvable) := by
  have hrun : runClingo fs true N solver (theoryFile rules []) =
      (fsPut (fsPut fs N.theory (some (.file (theoryFile rules [])))) N.model (some (.file out)), .ok (N.model, N.theory)) := by
    simp only [runClingo, executeCmd, hs, Bool.not_true, Bool.false_eq_true, if_false, if_true]
    refine Prod.ext ?_ rfl
    funext q
    simp only [fsPut]
    by_cases h1 : q = N.log
    · subst h1
      simp [hN.log, hN.tl.symm, hN.ml.symm]
    · by_cases h2 : q = N.model
      · simp [h2, hN.ml]
      · simp [h1, h2]
  simp only [solveWithFiles, hrun]
  have hread : parseModelArgs (fileLines (fsPut (fsPut fs N.theory (some (.file (theoryFile rules [])))) N.model (some (.file out)))) (some N.model) none tr = .ok m := by
    simp [parseModelArgs, hN.ne, fileLines, fsPut, hm]
  rw [hread]
  have r1 := silentRemove_put (fsPut fs N.theory (some (.file (theoryFile rules [])))) N.model out (by simp [fsPut, hN.tm.symm, hN.model])
  have r2 := silentRemove_put fs N.theory (theoryFile rules []) hN.theory
  simp only [r1, r2]
  by_cases h : (m.get "goal".toList).dedup.length = 1
  · rw [if_neg (not_not.2 h), if_pos h]
  · rw [if_pos h, if_neg h]

/-- The names and the solver of the counterexample: it succeeds, with a warning. -/
def exNames : TempNames := ⟨['t'], ['m'], ['l']⟩

/-- A warning of the solver is left behind in a file although the model is returned; and a failing solver leaves all files behind. -/
theorem C111_clean_refuted : ¬ C111_clean_full ∧
    (∃ m, (solveWithFiles (fun _ => none) true exNames (fun _ => ⟨0, "goal.\n".toList, "warning".toList⟩) [] ⟨[], []⟩).2 = .ok m) ∧
    (solveWithFiles (fun _ => none) true exNames (fun _ => ⟨0, "goal.\n".toList, "warning".toList⟩) [] ⟨[], []⟩).1 ['l'] = some (.file "warning".toList) ∧
    (solveWithFiles (fun _ => none) true exNames (fun _ => ⟨1, [], []⟩) [] ⟨[], []⟩).1 ['t'] = some (.file []) := by
  have h3 : (solveWithFiles (fun _ => none) true exNames (fun _ => ⟨1, [], []⟩) [] ⟨[], []⟩).1 ['t'] = some (.file []) := by decide
  refine ⟨fun h => ?_, ⟨[("goal".toList, [])], by decide⟩, by decide, h3⟩
  rw [h (fun _ => none) true exNames (fun _ => ⟨1, [], []⟩) [] ⟨[], []⟩ ⟨rfl, rfl, rfl, by decide, by decide, by decide, by decide⟩] at h3
  cases h3

/-- `w in s` holds exactly if `w` occurs in `s`, at whatever place. -/
theorem hasSubstring_iff (w s : AStr) : hasSubstring w s = true ↔ w <:+: s := by
  induction s with
  | nil => simp [hasSubstring]
  | cons c cs ih => simp only [hasSubstring, Bool.or_eq_true, ih, List.infix_cons_iff, List.isPrefixOf_iff_prefix]

/-- C111: the failures of the solver are told apart: a failed allocation, a time limit (also one during which memory ran out is reported
as the former), and others; and it is never taken to have succeeded. -/
theorem C111_failures (fs : FileSys) (N : TempNames) (hN : N.Fresh fs) (solver : AStr → CmdRun) (rules : List LPRuleT) (tr : Translator)
    (hr : (solver (theoryFile rules [])).retcode ≠ 0) :
    (solveWithFiles fs true N solver rules tr).2 = .error
      (if "std::bad_alloc".toList <:+: (solver (theoryFile rules [])).err then .outOfMemory
       else if (solver (theoryFile rules [])).retcode = -24 then .outOfTime else .externalCommand) := by
  simp only [← hasSubstring_iff]
  have hrun : (runClingo fs true N solver (theoryFile rules [])).2 = .error
      (if hasSubstring "std::bad_alloc".toList (solver (theoryFile rules [])).err then .outOfMemory
       else if (solver (theoryFile rules [])).retcode = -24 then .outOfTime else .externalCommand) := by
    have hlog : ∀ (g : FileSys) (run : CmdRun), errorLog (executeCmd g run N.model N.log).1 N.log = run.err := by
      intro g run
      simp only [executeCmd]
      by_cases he : run.err = [] <;> simp [he, fsPut, errorLog]
    have hret : ∀ (g : FileSys) (run : CmdRun), (executeCmd g run N.model N.log).2 = run.retcode := fun _ _ => rfl
    simp only [runClingo, Bool.not_true, Bool.false_eq_true, if_false, hlog, hret, hr]
    split
    · rfl
    · split <;> rfl
  simp only [solveWithFiles]
  generalize runClingo fs true N solver (theoryFile rules []) = r at hrun
  obtain ⟨fs1, r⟩ := r
  dsimp only at hrun
  subst hrun
  rfl

/-- Without a solver nothing is written. -/
theorem C111_no_solver (fs : FileSys) (N : TempNames) (solver : AStr → CmdRun) (rules : List LPRuleT) (tr : Translator) :
    solveWithFiles fs false N solver rules tr = (fs, .error .commandNotFound) := by
  simp [solveWithFiles, runClingo]

/-! ### The domain of a task -/

theorem takeWhile_base (d b : AStr) (hb : '/' ∉ b) : ((d ++ '/' :: b).reverse.takeWhile (fun c => c != '/')).reverse = b := by
  have : (d ++ '/' :: b).reverse = b.reverse ++ '/' :: d.reverse := by simp
  rw [this, List.takeWhile_append_of_pos]
  · simp
  · intro c hc
    have : c ≠ '/' := fun e => hb (by rw [← e, ← List.mem_reverse]; exact hc)
    simpa using this

/-- The four names for the domain of a task with a given name, in the order of preference. -/
def domainNames (b : AStr) : List AStr :=
  ["domain.pddl".toList, b.take 3 ++ "-domain.pddl".toList, "domain_".toList ++ b, "domain-".toList ++ b]

/-- C111: the domain of a task in a directory is the first of the four candidates that exists in this directory. -/
theorem C111_domain (fs : FileSys) (d b : AStr) (hd : d ≠ []) (hl : d.getLast? ≠ some '/') (hb : '/' ∉ b) :
    findDomain fs (d ++ '/' :: b) = ((domainNames b).map (fun n => d ++ '/' :: n)).find? (fun p => (fs p).isSome) := by
  have hsplit : pathSplit (d ++ '/' :: b) = (d, b) := by
    simp only [pathSplit]
    rw [takeWhile_base d b hb]
    have hlen : (d ++ '/' :: b).length - b.length = d.length + 1 := by simp; omega
    have htake : (d ++ '/' :: b).take (d.length + 1) = d ++ ['/'] := by
      rw [List.take_append, List.take_of_length_le (by omega)]; simp
    rw [hlen, htake]
    obtain ⟨x, hx⟩ : ∃ x, d.getLast? = some x := by
      cases h : d.getLast? with
      | none => exact absurd (List.getLast?_eq_none_iff.1 h) hd
      | some x => exact ⟨x, rfl⟩
    have hxs : x ≠ '/' := fun e => hl (by rw [hx, e])
    obtain ⟨ys, rfl⟩ : ∃ ys, d = ys ++ [x] := by
      rw [List.getLast?_eq_some_iff] at hx; exact hx
    rw [if_neg]
    · rw [pyRstrip_snoc _ (by simp)]
      simp [pyRstrip, hxs]
    · simp [hxs]
  have hjoin : ∀ n, pathJoin d n = d ++ '/' :: n := by
    intro n
    rw [pathJoin, if_neg (by simp [hd, hl])]
  simp only [findDomain, hsplit, domainNames]
  congr 1
  exact List.map_congr_left (fun n _ => hjoin n)

/-- … and that of a task without a directory the first that exists. -/
theorem C111_domain_here (fs : FileSys) (b : AStr) (hb : '/' ∉ b) : findDomain fs b = (domainNames b).find? (fun p => (fs p).isSome) := by
  have hsplit : pathSplit b = ([], b) := by
    have ht : (b.reverse.takeWhile (fun c => c != '/')).reverse = b := by
      have := List.takeWhile_append_of_pos (p := fun c => c != '/') (l₁ := b.reverse) (l₂ := []) (by
        intro c hc
        have : c ≠ '/' := fun e => hb (by rw [← e, ← List.mem_reverse]; exact hc)
        simpa using this)
      rw [List.append_nil] at this
      rw [this]; simp
    simp only [pathSplit, ht]
    simp
  have hjoin : pathJoin [] = id := by
    funext n; simp [pathJoin]
  simp only [findDomain, hsplit, domainNames, hjoin, List.map_id]

/-- The result is a file or directory that exists. -/
theorem C111_domain_exists (fs : FileSys) (t r : AStr) (h : findDomain fs t = some r) : fs r ≠ none := by
  simp only [findDomain] at h
  have := List.find?_some h
  intro e
  rw [e] at this
  cases this

example : findDomain (fun p => if p = "dir/domain-p01.pddl".toList then some (.file []) else none) "dir/p01.pddl".toList =
    some "dir/domain-p01.pddl".toList := by decide

end Tarski

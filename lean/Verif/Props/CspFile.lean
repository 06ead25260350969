import Mathlib.Tactic.Common
import Mathlib.Data.List.SplitOn
import Mathlib.Data.List.Forall2
import Verif.CspFile
import Verif.PddlReadLemmas
import Verif.Props.CspSchema
/-! C101: the files with the constraint satisfaction problems of action schemas. -/
namespace Tarski

/-! ### Specification: a reader of such files -/

/-- A constraint in a file. -/
inductive FileCon where
  | table (sym : String) (neg : Bool) (vars : List String)
  | stateVar (i : Nat) (value : Bool)
  | rel (op lhs rhs : String)
deriving DecidableEq

/-- The contents of a file. -/
structure CspText where
  vars : List CspVar
  relevant : List String
  params : List String
  cons : List FileCon

/-- The lines of a text, each divided into words. -/
def wordLines (t : AStr) : List (List String) := (t.splitOn '\n').map fun l => (l.splitOn ' ').map String.ofList

def readBool : String → Option Bool
  | "True" => some true
  | "False" => some false
  | _ => none

def readNat (s : String) : Option Nat := if s.toList ≠ [] ∧ s.toList.all isDig then some (intVal s.toList).toNat else none

/-- `n` elements. -/
def readN {α : Type} (f : List (List String) → Option (α × List (List String))) : Nat → List (List String) → Option (List α × List (List String))
  | 0, ls => some ([], ls)
  | n + 1, ls => match f ls with
    | none => none
    | some (x, ls') => match readN f n ls' with
      | none => none
      | some (xs, ls'') => some (x :: xs, ls'')

/-- A section: a word, the number of elements, the elements, the closing word. -/
def readSection {α : Type} (head last : String) (f : List (List String) → Option (α × List (List String))) : List (List String) → Option (List α × List (List String))
  | [h] :: [k] :: ls => if h = head then match readNat k with
    | none => none
    | some n => match readN f n ls with
      | some (xs, [l] :: rest) => if l = last then some (xs, rest) else none
      | _ => none
    else none
  | _ => none

/-- `name type int lb ub` -/
def readCspVar : List (List String) → Option (CspVar × List (List String))
  | [a, t, "int", l, u] :: ls => some (⟨a, t, intVal l.toList, intVal u.toList⟩, ls)
  | _ => none

def readName : List (List String) → Option (String × List (List String))
  | [a] :: ls => some (a, ls)
  | _ => none

/-- A constraint: a line with its kind and a line with its data. -/
def readFileCon : List (List String) → Option (FileCon × List (List String))
  | ["table-constraint"] :: (p :: neg :: vs) :: ls =>
    (if neg = "negative=True" then some true else if neg = "negative=False" then some false else none).map fun b => (.table p b (if vs = [""] then [] else vs), ls)
  | ["statevar=const"] :: [i, v] :: ls => match readNat i, readBool v with
    | some i, some v => some (.stateVar i v, ls)
    | _, _ => none
  | ["relational"] :: [l, op, r] :: ls => some (.rel op l r, ls)
  | _ => none

/-- A whole file: four sections, and nothing after them. -/
def readCspText (t : AStr) : Option CspText :=
  match readSection "variables" "end-variables" readCspVar (wordLines t) with
  | none => none
  | some (vs, l1) => match readSection "effect-relevant-variables" "end-effect-relevant-variables" readName l1 with
    | none => none
    | some (rs, l2) => match readSection "parameter-index" "end-parameter-index" readName l2 with
      | none => none
      | some (ps, l3) => match readSection "constraints" "end-constraints" readFileCon l3 with
        | some (cs, [[""]]) => some ⟨vs, rs, ps, cs⟩
        | _ => none

/-- A name without white space. -/
def WordName (s : String) : Prop := s ≠ "" ∧ ' ' ∉ s.toList ∧ '\n' ∉ s.toList

/-- The sign of a comparison. -/
def relSign : Cmp → String
  | .eq => "="
  | .ne => "!="
  | .lt => "<"
  | .le => "<="
  | .gt => ">"
  | .ge => ">="

/-- What a constraint says (`sv` is the index of a state variable). -/
inductive ConAs (sv : PSym → List Term → Option Nat) : CspCon → FileCon → Prop
  | table {p ns neg} : WordName p → (∀ n ∈ ns, WordName n) → ConAs sv (.table p (ns.map some) neg) (.table p neg ns)
  | tableFn {f ns} : WordName f → (∀ n ∈ ns, WordName n) → ConAs sv (.tableFn f (ns.map some)) (.table f false ns)
  | stateVar {p ts v i} : sv p ts = some i → ConAs sv (.stateVar p ts v) (.stateVar i v)
  | rel {c l r} : WordName l → WordName r → ConAs sv (.rel c (some l) (some r)) (.rel (relSign c) l r)
  | relFn {f l r} : WordName f → WordName l → WordName r → ConAs sv (.relFn f (some l) (some r)) (.rel f l r)

/-! ### Lines and words -/

theorem spaced_eq : ∀ l : List AStr, spaced l = List.intercalate [' '] l
  | [] => rfl
  | [a] => by simp [spaced, List.intercalate]
  | a :: b :: l => by
    have := spaced_eq (b :: l)
    simp only [spaced, this, List.intercalate, List.intersperse, List.flatten_cons]
    simp

def toWords (l : AStr) : List String := (l.splitOn ' ').map String.ofList

theorem words_spaced {l : List AStr} (hne : l ≠ []) (h : ∀ a ∈ l, ' ' ∉ a) : toWords (spaced l) = l.map String.ofList := by
  unfold toWords
  rw [spaced_eq, List.splitOn_intercalate _ h hne]

theorem words_one {a : AStr} (h : ' ' ∉ a) : toWords a = [String.ofList a] := by
  have := words_spaced (l := [a]) (by simp) (by simpa using h)
  simpa [spaced] using this

theorem fileText_eq (ls : List AStr) : fileText ls = List.intercalate ['\n'] (ls ++ [[]]) := by
  induction ls with
  | nil => simp [fileText, List.intercalate]
  | cons a ls ih =>
    have : fileText (a :: ls) = a ++ '\n' :: fileText ls := by simp [fileText]
    rw [this, ih]
    cases ls with
    | nil => simp [List.intercalate, List.intersperse]
    | cons b ls => simp [List.intercalate, List.intersperse]

theorem wordLines_file {ls : List AStr} (h : ∀ l ∈ ls, '\n' ∉ l) : wordLines (fileText ls) = ls.map toWords ++ [[""]] := by
  unfold wordLines
  rw [fileText_eq, List.splitOn_intercalate _ (by
    intro l hl
    rcases List.mem_append.mp hl with hl | hl
    · exact h l hl
    · simp at hl; subst hl; simp) (by simp), List.map_append]
  rfl

theorem int_chars {c : Char} (h1 : isDig c = false) (h2 : c ≠ '-') (z : Int) : c ∉ intText z := by
  intro h
  cases z with
  | ofNat n =>
    have := digits_dig n c h
    rw [h1] at this; cases this
  | negSucc n =>
    rcases List.mem_cons.mp h with h | h
    · exact h2 h
    · have := digits_dig _ c h
      rw [h1] at this; cases this

theorem readNat_int (n : Nat) : readNat (String.ofList (intText n)) = some n := by
  have h1 : (intText (n : Int)).all isDig = true := by
    rw [List.all_eq_true]
    intro c hc
    exact digits_dig n c hc
  have h2 : intText (n : Int) ≠ [] := Nat.toDigits_ne_nil
  unfold readNat
  rw [String.toList_ofList, if_pos ⟨h2, h1⟩, intVal_intText]
  simp

theorem readN_all {α : Type} {f : List (List String) → Option (α × List (List String))} {β : Type} (pr : β → List (List String)) (val : β → α → Prop) :
    ∀ {bs : List β} {xs : List α}, List.Forall₂ val bs xs → (∀ b x, val b x → ∀ rest, f (pr b ++ rest) = some (x, rest)) →
    ∀ rest, readN f bs.length (bs.flatMap pr ++ rest) = some (xs, rest) := by
  intro bs xs h hf
  induction h with
  | nil => intro rest; rfl
  | @cons b x bs xs h _ ih =>
    intro rest
    simp only [List.length_cons, List.flatMap_cons, List.append_assoc, readN, hf b x h, ih]

theorem readSection_all {α : Type} {head last : String} {f : List (List String) → Option (α × List (List String))} {β : Type} (pr : β → List (List String)) (val : β → α → Prop)
    {bs : List β} {xs : List α} (h : List.Forall₂ val bs xs) (hf : ∀ b x, val b x → ∀ rest, f (pr b ++ rest) = some (x, rest)) (rest : List (List String)) :
    readSection head last f ([head] :: [String.ofList (intText bs.length)] :: (bs.flatMap pr ++ [last] :: rest)) = some (xs, rest) := by
  simp only [readSection, if_true, readNat_int, readN_all pr val h hf]

/-! ### Sections -/

theorem var_words {v : CspVar} (hn : WordName v.name) (ht : WordName v.type) : toWords (cspVarLine v) = [v.name, v.type, "int", String.ofList (intText v.lb), String.ofList (intText v.ub)] := by
  unfold cspVarLine
  rw [words_spaced (by simp)]
  · simp
  · intro a ha
    simp only [List.mem_cons, List.not_mem_nil, or_false] at ha
    rcases ha with rfl | rfl | rfl | rfl | rfl
    · exact hn.2.1
    · exact ht.2.1
    · decide
    · exact int_chars (by decide) (by decide) _
    · exact int_chars (by decide) (by decide) _

theorem mem_spaced {c : Char} : ∀ {l : List AStr}, c ∈ spaced l → c = ' ' ∨ ∃ a ∈ l, c ∈ a
  | [], h => by simp [spaced] at h
  | [a], h => .inr ⟨a, by simp, by simpa [spaced] using h⟩
  | a :: b :: l, h => by
    simp only [spaced, List.mem_append, List.mem_cons] at h
    rcases h with h | h | h
    · exact .inr ⟨a, by simp, h⟩
    · exact .inl h
    · rcases mem_spaced h with h | ⟨x, hx, hc⟩
      · exact .inl h
      · exact .inr ⟨x, by simp only [List.mem_cons] at hx ⊢; tauto, hc⟩

theorem spaced_noline {l : List AStr} (h : ∀ a ∈ l, '\n' ∉ a) : '\n' ∉ spaced l := by
  intro hc
  rcases mem_spaced hc with hc | ⟨a, ha, hc⟩
  · cases hc
  · exact h a ha hc

theorem joinVars_some : ∀ ns : List String, joinVars (ns.map some) = .ok (ns.map String.toList)
  | [] => rfl
  | n :: ns => by simp [joinVars, joinVars_some ns]

/-- What is printed for a constraint, as words. -/
theorem con_words {sv : PSym → List Term → Option Nat} {c : CspCon} {x : FileCon} (h : ConAs sv c x) :
    ∃ ls, cspConLines sv c = (ls, none) ∧ (∀ l ∈ ls, '\n' ∉ l) ∧ ∀ rest, readFileCon (ls.map toWords ++ rest) = some (x, rest) := by
  have table : ∀ (p : String) (ns : List String) (neg : Bool), WordName p → (∀ n ∈ ns, WordName n) →
      (∀ l ∈ ["table-constraint".toList, spaced [p.toList, "negative=".toList ++ pyBoolText neg, spaced (ns.map String.toList)]], '\n' ∉ l) ∧
      ∀ rest, readFileCon ((["table-constraint".toList, spaced [p.toList, "negative=".toList ++ pyBoolText neg, spaced (ns.map String.toList)]].map toWords) ++ rest) = some (.table p neg ns, rest) := by
    intro p ns neg hp hns
    have hneg : ∀ c, c = ' ' ∨ c = '\n' → c ∉ "negative=".toList ++ pyBoolText neg := by
      rintro c (rfl | rfl) <;> cases neg <;> decide
    constructor
    · intro l hl
      simp only [List.mem_cons, List.not_mem_nil, or_false] at hl
      rcases hl with rfl | rfl
      · decide
      · apply spaced_noline
        intro a ha
        simp only [List.mem_cons, List.not_mem_nil, or_false] at ha
        rcases ha with rfl | rfl | rfl
        · exact hp.2.2
        · exact hneg _ (.inr rfl)
        · apply spaced_noline
          intro a ha
          obtain ⟨n, hn, rfl⟩ := List.mem_map.mp ha
          exact (hns n hn).2.2
    · intro rest
      have hw : toWords (spaced [p.toList, "negative=".toList ++ pyBoolText neg, spaced (ns.map String.toList)]) =
          p :: String.ofList ("negative=".toList ++ pyBoolText neg) :: (if ns = [] then [""] else ns) := by
        by_cases hne : ns = []
        · subst hne
          rw [words_spaced (by simp)]
          · simp [spaced]
          · intro a ha
            simp only [List.mem_cons, List.not_mem_nil, or_false] at ha
            rcases ha with rfl | rfl | rfl
            · exact hp.2.1
            · exact hneg _ (.inl rfl)
            · simp [spaced]
        · have e : spaced [p.toList, "negative=".toList ++ pyBoolText neg, spaced (ns.map String.toList)] =
              spaced (p.toList :: ("negative=".toList ++ pyBoolText neg) :: ns.map String.toList) := by
            cases ns with
            | nil => exact absurd rfl hne
            | cons n ns => rfl
          rw [e, words_spaced (by simp), if_neg hne]
          · simp [Function.comp_def]
          · intro a ha
            simp only [List.mem_cons] at ha
            rcases ha with rfl | rfl | ha
            · exact hp.2.1
            · exact hneg _ (.inl rfl)
            · obtain ⟨n, hn, rfl⟩ := List.mem_map.mp ha
              exact (hns n hn).2.1
      have h1 : toWords "table-constraint".toList = ["table-constraint"] := words_one (by decide)
      simp only [List.map_cons, List.map_nil, h1, hw, List.cons_append, List.nil_append, readFileCon]
      have hvs : (if (if ns = [] then [""] else ns) = [""] then [] else (if ns = [] then [""] else ns)) = ns := by
        by_cases hne : ns = []
        · simp [hne]
        · simp only [hne, if_false]
          rw [if_neg]
          rintro rfl
          exact (hns "" (by simp)).1 rfl
      rw [hvs]
      cases neg
      · have : String.ofList ("negative=".toList ++ pyBoolText false) = "negative=False" := by decide
        rw [this]; rfl
      · have : String.ofList ("negative=".toList ++ pyBoolText true) = "negative=True" := by decide
        rw [this]; rfl
  have rel : ∀ (l o r : String), WordName l → WordName o → WordName r → (∀ x ∈ ["relational".toList, spaced [l.toList, o.toList, r.toList]], '\n' ∉ x) ∧
      ∀ rest, readFileCon ((["relational".toList, spaced [l.toList, o.toList, r.toList]].map toWords) ++ rest) = some (.rel o l r, rest) := by
    intro l o r hl ho hr
    constructor
    · intro x hx
      simp only [List.mem_cons, List.not_mem_nil, or_false] at hx
      rcases hx with rfl | rfl
      · decide
      · apply spaced_noline
        intro a ha
        simp only [List.mem_cons, List.not_mem_nil, or_false] at ha
        rcases ha with rfl | rfl | rfl
        · exact hl.2.2
        · exact ho.2.2
        · exact hr.2.2
    · intro rest
      have h1 : toWords "relational".toList = ["relational"] := words_one (by decide)
      have h2 : toWords (spaced [l.toList, o.toList, r.toList]) = [l, o, r] := by
        rw [words_spaced (by simp)]
        · simp
        · intro a ha
          simp only [List.mem_cons, List.not_mem_nil, or_false] at ha
          rcases ha with rfl | rfl | rfl
          · exact hl.2.1
          · exact ho.2.1
          · exact hr.2.1
      simp only [List.map_cons, List.map_nil, h1, h2, List.cons_append, List.nil_append, readFileCon]
  cases h with
  | @table p ns neg hp hns =>
    obtain ⟨h1, h2⟩ := table p ns neg hp hns
    exact ⟨_, by simp only [cspConLines, joinVars_some], h1, h2⟩
  | @tableFn f ns hp hns =>
    obtain ⟨h1, h2⟩ := table f ns false hp hns
    exact ⟨_, by simp only [cspConLines, joinVars_some], h1, h2⟩
  | @stateVar p ts v i hi =>
    refine ⟨["statevar=const".toList, spaced [intText i, pyBoolText v]], by simp only [cspConLines, hi], ?_, ?_⟩
    · intro x hx
      simp only [List.mem_cons, List.not_mem_nil, or_false] at hx
      rcases hx with rfl | rfl
      · decide
      · apply spaced_noline
        intro a ha
        simp only [List.mem_cons, List.not_mem_nil, or_false] at ha
        rcases ha with rfl | rfl
        · exact int_chars (by decide) (by decide) _
        · cases v <;> decide
    · intro rest
      have h1 : toWords "statevar=const".toList = ["statevar=const"] := words_one (by decide)
      have h2 : toWords (spaced [intText i, pyBoolText v]) = [String.ofList (intText i), String.ofList (pyBoolText v)] := by
        rw [words_spaced (by simp)]
        · rfl
        · intro a ha
          simp only [List.mem_cons, List.not_mem_nil, or_false] at ha
          rcases ha with rfl | rfl
          · exact int_chars (by decide) (by decide) _
          · cases v <;> decide
      have h3 : readBool (String.ofList (pyBoolText v)) = some v := by cases v <;> rfl
      simp only [List.map_cons, List.map_nil, h1, h2, List.cons_append, List.nil_append, readFileCon, readNat_int, h3]
  | @rel c l r hl hr =>
    have ho : WordName (relSign c) := by cases c <;> exact ⟨by decide, by decide, by decide⟩
    have h12 := rel l _ r hl ho hr
    have e : (relSign c).toList = relText c := by cases c <;> rfl
    rw [e] at h12
    exact ⟨["relational".toList, spaced [l.toList, relText c, r.toList]], rfl, h12.1, h12.2⟩
  | @relFn f l r hf hl hr =>
    obtain ⟨h1, h2⟩ := rel l f r hl hf hr
    exact ⟨_, by simp only [cspConLines, optText], h1, h2⟩

theorem cons_words {sv : PSym → List Term → Option Nat} {cs : List CspCon} {xs : List FileCon} (h : List.Forall₂ (ConAs sv) cs xs) :
    ∃ ls, cspConsLines sv cs = (ls, none) ∧ (∀ l ∈ ls, '\n' ∉ l) ∧ ∀ rest, readN readFileCon cs.length (ls.map toWords ++ rest) = some (xs, rest) := by
  induction h with
  | nil => exact ⟨[], rfl, by simp, fun rest => rfl⟩
  | cons h _ ih =>
    obtain ⟨l1, h1, h2, h3⟩ := con_words h
    obtain ⟨l2, h4, h5, h6⟩ := ih
    refine ⟨l1 ++ l2, by simp only [cspConsLines, h1, h4], ?_, ?_⟩
    · intro l hl
      rcases List.mem_append.mp hl with hl | hl
      · exact h2 l hl
      · exact h5 l hl
    · intro rest
      simp only [List.length_cons, readN, List.map_append, List.append_assoc, h3, h6]

/-- The file of a constraint satisfaction problem whose names have no white space is read back: variables with types and bounds, the
parameters, the constraints. The effect-relevant variables are read back unless all are. -/
theorem C101_read_partial {sv : PSym → List Term → Option Nat} {relevant params : List String} {c : Csp} {xs : List FileCon}
    (hv : ∀ v ∈ c.vars, WordName v.name ∧ WordName v.type) (hr : ∀ r ∈ relevant, WordName r) (hp : ∀ p ∈ params, WordName p) (hc : List.Forall₂ (ConAs sv) c.cons xs) :
    ∃ ls, cspFile sv relevant params c = (ls, none) ∧
      readCspText (fileText ls) = some ⟨c.vars, if relevant.length = params.length then [] else relevant, params, xs⟩ := by
  obtain ⟨ls, h1, h2, h3⟩ := cons_words hc
  have hn : ∀ n : Nat, '\n' ∉ countLine n := fun n => int_chars (by decide) (by decide) _
  have hn' : ∀ n : Nat, toWords (countLine n) = [String.ofList (intText n)] := fun n => words_one (int_chars (by decide) (by decide) _)
  have names : ∀ l : List String, (∀ r ∈ l, WordName r) → (l.map String.toList).map toWords = l.flatMap fun a => [[a]] := by
    intro l hl
    induction l with
    | nil => rfl
    | cons a l ih =>
      simp only [List.map_cons, List.flatMap_cons]
      rw [words_one (hl a (by simp)).2.1, ih (fun r hr => hl r (by simp [hr]))]
      simp
  have vars : c.vars.map (fun v => toWords (cspVarLine v)) = c.vars.flatMap fun v => [[v.name, v.type, "int", String.ofList (intText v.lb), String.ofList (intText v.ub)]] := by
    have : ∀ l : List CspVar, (∀ v ∈ l, WordName v.name ∧ WordName v.type) → l.map (fun v => toWords (cspVarLine v)) = l.flatMap fun v => [[v.name, v.type, "int", String.ofList (intText v.lb), String.ofList (intText v.ub)]] := by
      intro l hl
      induction l with
      | nil => rfl
      | cons a l ih =>
        simp only [List.map_cons, List.flatMap_cons]
        rw [var_words (hl a (by simp)).1 (hl a (by simp)).2, ih (fun r hr => hl r (by simp [hr]))]
        rfl
    exact this _ hv
  have rel : ∃ rs : List String, rs = (if relevant.length = params.length then [] else relevant) ∧ (∀ r ∈ rs, WordName r) ∧ relevantLines relevant params = countLine rs.length :: rs.map String.toList := by
    unfold relevantLines
    split
    · exact ⟨[], rfl, by simp, rfl⟩
    · exact ⟨relevant, rfl, hr, rfl⟩
  obtain ⟨rs, hrs1, hrs2, hrs3⟩ := rel
  let whole : List AStr := ["variables".toList, countLine c.vars.length] ++ c.vars.map cspVarLine ++ ["end-variables".toList, "effect-relevant-variables".toList] ++
    relevantLines relevant params ++ ["end-effect-relevant-variables".toList, "parameter-index".toList, countLine params.length] ++ params.map String.toList ++
    ["end-parameter-index".toList, "constraints".toList, countLine c.cons.length] ++ ls ++ ["end-constraints".toList]
  have hnl : ∀ l ∈ whole, '\n' ∉ l := by
    have lit : ∀ s ∈ ["variables", "end-variables", "effect-relevant-variables", "end-effect-relevant-variables", "parameter-index", "end-parameter-index", "constraints", "end-constraints"],
        '\n' ∉ s.toList := by decide
    intro l hl
    simp only [whole, hrs3, List.mem_append, List.mem_cons, List.not_mem_nil, or_false, List.mem_map] at hl
    rcases hl with ((((((((rfl | rfl) | ⟨v, hv', rfl⟩) | rfl | rfl) | rfl | ⟨r, hr', rfl⟩) | rfl | rfl | rfl) | ⟨q, hq, rfl⟩) | rfl | rfl | rfl) | hl) | rfl
    · exact lit _ (by simp)
    · exact hn _
    · apply spaced_noline
      intro a ha
      simp only [List.mem_cons, List.not_mem_nil, or_false] at ha
      rcases ha with rfl | rfl | rfl | rfl | rfl
      · exact (hv v hv').1.2.2
      · exact (hv v hv').2.2.2
      · decide
      · exact int_chars (by decide) (by decide) _
      · exact int_chars (by decide) (by decide) _
    · exact lit _ (by simp)
    · exact lit _ (by simp)
    · exact hn _
    · exact (hrs2 r hr').2.2
    · exact lit _ (by simp)
    · exact lit _ (by simp)
    · exact hn _
    · exact (hp q hq).2.2
    · exact lit _ (by simp)
    · exact lit _ (by simp)
    · exact hn _
    · exact h2 l hl
    · exact lit _ (by simp)
  refine ⟨whole, by simp only [cspFile, h1, whole], ?_⟩
  have lit : ∀ s ∈ ["variables", "end-variables", "effect-relevant-variables", "end-effect-relevant-variables", "parameter-index", "end-parameter-index", "constraints", "end-constraints"],
      toWords s.toList = [s] := by
    intro s hs
    rw [words_one]
    · rw [String.ofList_toList]
    · revert s; decide
  have hw : whole.map toWords ++ [[""]] = ["variables"] :: [String.ofList (intText c.vars.length)] ::
      (c.vars.flatMap (fun v => [[v.name, v.type, "int", String.ofList (intText v.lb), String.ofList (intText v.ub)]]) ++ ["end-variables"] ::
      (["effect-relevant-variables"] :: [String.ofList (intText rs.length)] :: (rs.flatMap (fun a => [[a]]) ++ ["end-effect-relevant-variables"] ::
      (["parameter-index"] :: [String.ofList (intText params.length)] :: (params.flatMap (fun a => [[a]]) ++ ["end-parameter-index"] ::
      (["constraints"] :: [String.ofList (intText c.cons.length)] :: (ls.map toWords ++ ["end-constraints"] :: [[""]]))))))) := by
    simp only [whole, hrs3, List.map_append, List.map_cons, List.map_nil, hn', names _ hrs2, names _ hp, List.map_map, Function.comp_def]
    rw [vars, lit "variables" (by simp), lit "end-variables" (by simp), lit "effect-relevant-variables" (by simp), lit "end-effect-relevant-variables" (by simp), lit "parameter-index" (by simp),
      lit "end-parameter-index" (by simp), lit "constraints" (by simp), lit "end-constraints" (by simp)]
    simp only [List.append_assoc, List.cons_append, List.nil_append]
  unfold readCspText
  rw [wordLines_file hnl, hw, readSection_all _ (fun (v : CspVar) (x : CspVar) => v = x) (xs := c.vars) (by rw [List.forall₂_same]; simp)
    (by rintro b x rfl rest; simp [readCspVar, intVal_intText])]
  dsimp only
  rw [readSection_all _ (fun (v : String) (x : String) => v = x) (xs := rs) (by rw [List.forall₂_same]; simp) (by rintro b x rfl rest; simp [readName])]
  dsimp only
  rw [readSection_all _ (fun (v : String) (x : String) => v = x) (xs := params) (by rw [List.forall₂_same]; simp) (by rintro b x rfl rest; simp [readName])]
  dsimp only
  simp only [readSection, if_true, readNat_int, h3, ← hrs1]

/-! ### The problems of action schemas -/

mutual
/-- A (not builtin) predicate of the formula. -/
def UserF (p : String) : Formula → Prop
  | .top => False
  | .bot => False
  | .atom q _ => q = .user p
  | .comp _ _ fs => UserFs p fs
  | .quant _ _ f => UserF p f
def UserFs (p : String) : List Formula → Prop
  | [] => False
  | f :: fs => UserF p f ∨ UserFs p fs
end

/-- A problem that can be written. -/
def FileReady (sv : PSym → List Term → Option Nat) (c : Csp) : Prop :=
  (∀ v ∈ c.vars, WordName v.name ∧ WordName v.type) ∧ ∀ x ∈ c.cons, ∃ y, ConAs sv x y

theorem FileReady.addVar {sv : PSym → List Term → Option Nat} {c : Csp} (h : FileReady sv c) {v : CspVar} (hn : WordName v.name) (ht : WordName v.type) :
    FileReady sv (c.addVar v) := by
  unfold Csp.addVar
  split
  · exact h
  · refine ⟨fun w hw => ?_, h.2⟩
    rcases List.mem_append.mp hw with hw | hw
    · exact h.1 w hw
    · simp only [List.mem_singleton] at hw; subst hw; exact ⟨hn, ht⟩

theorem FileReady.addCon {sv : PSym → List Term → Option Nat} {c : Csp} (h : FileReady sv c) {x : CspCon} {y : FileCon} (hx : ConAs sv x y) :
    FileReady sv { c with cons := c.cons ++ [x] } := by
  refine ⟨h.1, fun w hw => ?_⟩
  rcases List.mem_append.mp hw with hw | hw
  · exact h.2 w hw
  · simp only [List.mem_singleton] at hw; subst hw; exact ⟨y, hx⟩

theorem FileReady.variable {sv : PSym → List Term → Option Nat} {E : CspEnv} {c c' : Csp} (h : FileReady sv c) {v : Var} {ty : String} {o : Option String} (hn : WordName v.sym) (ht : WordName ty)
    (hr : cspVariable E v ty c = .ok (c', o)) : FileReady sv c' := by
  unfold cspVariable at hr
  split at hr
  · cases hr
  · simp only [Except.ok.injEq, Prod.mk.injEq] at hr
    rw [← hr.1]
    exact h.addVar hn ht

theorem wordName_var : WordName "var" := ⟨by decide, by decide, by decide⟩
theorem wordName_const : WordName "const" := ⟨by decide, by decide, by decide⟩
theorem wordName_param : WordName "param" := ⟨by decide, by decide, by decide⟩

theorem FileReady.terms {sv : PSym → List Term → Option Nat} {E : CspEnv} : ∀ {ts : List Term} {c c' : Csp} {os : List (Option String)}, FileReady sv c →
    (∀ t ∈ ts, IsLeaf t ∧ WordName (leafText t)) → cspTerms E ts c = .ok (c', os) → FileReady sv c'
  | [], c, c', os, hw, _, h => by
    simp only [cspTerms, Except.ok.injEq, Prod.mk.injEq] at h
    rw [← h.1]; exact hw
  | t :: ts, c, c', os, hw, ht, h => by
    simp only [cspTerms] at h
    cases h1 : cspTerm E t c with
    | error e => simp [h1] at h
    | ok r1 =>
      obtain ⟨c1, o⟩ := r1
      simp only [h1] at h
      cases h2 : cspTerms E ts c1 with
      | error e => simp [h2] at h
      | ok r2 =>
        obtain ⟨c2, os'⟩ := r2
        simp only [h2, Except.ok.injEq, Prod.mk.injEq] at h
        obtain ⟨rfl, rfl⟩ := h
        refine FileReady.terms ?_ (fun u hu => ht u (by simp [hu])) h2
        obtain ⟨hl, hn⟩ := ht t (by simp)
        rcases hl with ⟨v, rfl⟩ | ⟨n, s, rfl⟩
        · exact hw.variable hn wordName_var h1
        · simp only [cspTerm, cspConstant] at h1
          split at h1
          · cases h1
          · simp only [Except.ok.injEq, Prod.mk.injEq] at h1
            rw [← h1.1]
            exact hw.addVar hn wordName_const

theorem FileReady.atom {sv : PSym → List Term → Option Nat} {E : CspEnv} (hsv : ∀ p ts, E.isSV p ts = true → ∃ i, sv p ts = some i) {neg : Bool} {p : PSym} {ts : List Term} {c c' : Csp} (hw : FileReady sv c)
    (ht : ∀ t ∈ ts, IsLeaf t ∧ WordName (leafText t)) (hp : ∀ q, p = .user q → WordName q) (h : cspAtom E neg p ts c = .ok c') : FileReady sv c' := by
  have hl : ∀ t ∈ ts, IsLeaf t := fun t h => (ht t h).1
  unfold cspAtom at h
  split at h
  · rename_i hc
    simp only [Bool.and_eq_true] at hc
    obtain ⟨i, hi⟩ := hsv p ts hc.2
    simp only [Except.ok.injEq] at h
    subst h
    exact hw.addCon (.stateVar hi)
  · cases p with
    | cmp k =>
      dsimp only at h
      cases h1 : cspTerms E ts c with
      | error e => simp [h1] at h
      | ok r1 =>
        obtain ⟨c1, os⟩ := r1
        rw [h1] at h
        obtain ⟨e, -, -⟩ := cspTerms_leaves hl h1
        have hw1 := hw.terms ht h1
        subst e
        match ts, ht, h with
        | [], _, h => cases h
        | [_], _, h => cases h
        | [a, b], ht, h =>
          simp only [List.map_cons, List.map_nil, Except.ok.injEq] at h
          subst h
          exact hw1.addCon (.rel (ht a (by simp)).2 (ht b (by simp)).2)
        | _ :: _ :: _ :: _, _, h => cases h
    | user q =>
      dsimp only at h
      cases h1 : cspTerms E ts c with
      | error e => simp [h1] at h
      | ok r1 =>
        obtain ⟨c1, os⟩ := r1
        rw [h1] at h
        dsimp only at h
        cases h2 : cspTerms E ts c1 with
        | error e => simp [h2] at h
        | ok r2 =>
          obtain ⟨c2, os2⟩ := r2
          simp only [h2, Except.ok.injEq] at h
          obtain ⟨e, -, -⟩ := cspTerms_leaves hl h2
          have hw2 := (hw.terms ht h1).terms ht h2
          subst h e
          refine hw2.addCon (.table (hp q rfl) fun n hn => ?_)
          obtain ⟨t, h, rfl⟩ := List.mem_map.mp hn
          exact (ht t h).2

mutual
theorem FileReady.formula {sv : PSym → List Term → Option Nat} {E : CspEnv} (hsv : ∀ p ts, E.isSV p ts = true → ∃ i, sv p ts = some i) (f : Formula) (hf : FlatConj f) (hn : ∀ t, ArgF t f → WordName (leafText t))
    (hp : ∀ q, UserF q f → WordName q) {c c' : Csp} (hw : FileReady sv c) (h : cspFormula E f c = .ok c') : FileReady sv c' := by
  match f, hf, hn, hp, h with
  | .top, _, _, _, h =>
    simp only [cspFormula, Except.ok.injEq] at h
    subst h; exact hw
  | .atom p ts, hf, hn, hp, h =>
    simp only [cspFormula] at h
    simp only [FlatConj] at hf
    exact hw.atom hsv (fun t ht => ⟨hf.1 t ht, hn t (by simp only [ArgF]; exact ht)⟩) (fun q e => hp q (by simp only [UserF]; exact e)) h
  | .comp _ .not fs, hf, hn, hp, h =>
    simp only [FlatConj] at hf
    obtain ⟨p, ts, rfl, h1, h2⟩ := hf
    simp only [cspFormula] at h
    exact hw.atom hsv (fun t ht => ⟨h1 t ht, hn t (by simp only [ArgF, ArgFs]; exact .inl ht)⟩) (fun q e => hp q (by simp only [UserF, UserFs]; exact .inl e)) h
  | .comp _ .and fs, hf, hn, hp, h =>
    simp only [cspFormula] at h
    simp only [FlatConj] at hf
    exact FileReady.formulas hsv fs hf (fun t ht => hn t (by simp only [ArgF]; exact ht)) (fun q e => hp q (by simp only [UserF]; exact e)) hw h
  | .bot, hf, _, _, _ => simp [FlatConj] at hf
  | .comp _ .or _, hf, _, _, _ => simp [FlatConj] at hf
  | .quant _ _ _, hf, _, _, _ => simp [FlatConj] at hf
theorem FileReady.formulas {sv : PSym → List Term → Option Nat} {E : CspEnv} (hsv : ∀ p ts, E.isSV p ts = true → ∃ i, sv p ts = some i) (fs : List Formula) (hf : FlatConjs fs) (hn : ∀ t, ArgFs t fs → WordName (leafText t))
    (hp : ∀ q, UserFs q fs → WordName q) {c c' : Csp} (hw : FileReady sv c) (h : cspFormulas E fs c = .ok c') : FileReady sv c' := by
  match fs, hf, hn, hp, h with
  | [], _, _, _, h =>
    simp only [cspFormulas, Except.ok.injEq] at h
    subst h; exact hw
  | f :: fs, hf, hn, hp, h =>
    simp only [FlatConjs] at hf
    simp only [cspFormulas] at h
    split at h
    · cases h
    · rename_i c1 h1
      exact FileReady.formulas hsv fs hf.2 (fun t ht => hn t (by simp only [ArgFs]; exact .inr ht)) (fun q e => hp q (by simp only [UserFs]; exact .inr e))
        (FileReady.formula hsv f hf.1 (fun t ht => hn t (by simp only [ArgFs]; exact .inl ht)) (fun q e => hp q (by simp only [UserFs]; exact .inl e)) hw h1) h
end

theorem FileReady.params {sv : PSym → List Term → Option Nat} {E : CspEnv} : ∀ {vs : List Var} {c c' : Csp}, FileReady sv c → (∀ v ∈ vs, WordName v.sym) → cspParams E vs c = .ok c' → FileReady sv c'
  | [], c, c', hw, _, h => by
    simp only [cspParams, Except.ok.injEq] at h
    subst h; exact hw
  | v :: vs, c, c', hw, hv, h => by
    simp only [cspParams] at h
    split at h
    · cases h
    · rename_i c1 o h1
      exact FileReady.params (hw.variable (hv v (by simp)) wordName_param h1) (fun w hw => hv w (by simp [hw])) h

/-- The file of an action schema whose precondition is a conjunction of literals over variables and constants, with names without
white space: the whole problem is read back. -/
theorem C101_schema_partial {sv : PSym → List Term → Option Nat} {E : CspEnv} (hsv : ∀ p ts, E.isSV p ts = true → ∃ i, sv p ts = some i) {params : List Var} {pre : Formula} {csp : Csp}
    (h : cspSchema E params pre = .ok csp) (hf : FlatConj pre) (hn : ∀ t, LeafOf params pre t → WordName (leafText t)) (hp : ∀ q, UserF q pre → WordName q) {relevant : List String}
    (hr : ∀ r ∈ relevant, ∃ v ∈ params, r = v.sym) :
    ∃ ls xs, cspFile sv relevant (params.map (·.sym)) csp = (ls, none) ∧ List.Forall₂ (ConAs sv) csp.cons xs ∧
      readCspText (fileText ls) = some ⟨csp.vars, if relevant.length = params.length then [] else relevant, params.map (·.sym), xs⟩ := by
  have hv : ∀ v ∈ params, WordName v.sym := fun v hv => hn (.var v) (.inl ⟨v, hv, rfl⟩)
  unfold cspSchema at h
  cases h1 : cspParams E params ⟨[], []⟩ with
  | error e => simp [h1] at h
  | ok c =>
    rw [h1] at h
    have hw0 : FileReady sv ⟨[], []⟩ := ⟨by simp, by simp⟩
    have hw := FileReady.formula hsv pre hf (fun t ht => hn t (.inr ht)) hp (hw0.params hv h1) h
    have : ∀ l : List CspCon, (∀ x ∈ l, ∃ y, ConAs sv x y) → ∃ xs, List.Forall₂ (ConAs sv) l xs := by
      intro l hl
      induction l with
      | nil => exact ⟨[], .nil⟩
      | cons a l ih =>
        obtain ⟨y, hy⟩ := hl a (by simp)
        obtain ⟨ys, hys⟩ := ih fun x hx => hl x (by simp [hx])
        exact ⟨y :: ys, .cons hy hys⟩
    obtain ⟨xs, hxs⟩ := this _ hw.2
    obtain ⟨ls, e1, e2⟩ := C101_read_partial (relevant := relevant) (params := params.map (·.sym)) hw.1 (by
      intro r hr'
      obtain ⟨v, hv', rfl⟩ := hr r hr'
      exact hv v hv') (by
      intro p hp
      obtain ⟨v, hv', rfl⟩ := List.mem_map.mp hp
      exact hv v hv') hxs
    exact ⟨ls, xs, e1, hxs, by simpa using e2⟩

/-- Non-vacuity: the file of `on(?x, ?y) and not p(?x) and ?x != b and handempty()`, where `?x` is effect-relevant. -/
example : ∃ csp ls, cspSchema exCspEnv [⟨"?x", "o"⟩, ⟨"?y", "o"⟩] exCspPre = .ok csp ∧ cspFile (fun _ _ => some 7) ["?x"] ["?x", "?y"] csp = (ls, none) ∧
    ls.map String.ofList = ["variables", "3", "?x param int 0 1", "?y param int 0 1", "b const int 0 0", "end-variables", "effect-relevant-variables", "1", "?x", "end-effect-relevant-variables",
      "parameter-index", "2", "?x", "?y", "end-parameter-index", "constraints", "4", "table-constraint", "on negative=False ?x ?y", "table-constraint", "p negative=True ?x",
      "relational", "?x != b", "statevar=const", "7 True", "end-constraints"] ∧
    readCspText (fileText ls) = some ⟨[⟨"?x", "param", 0, 1⟩, ⟨"?y", "param", 0, 1⟩, ⟨"b", "const", 0, 0⟩], ["?x"], ["?x", "?y"],
      [.table "on" false ["?x", "?y"], .table "p" true ["?x"], .rel "!=" "?x" "b", .stateVar 7 true]⟩ := by
  have w : ∀ s ∈ ["?x", "?y", "b", "on", "p", "handempty", "param", "const"], WordName s := by
    intro s hs
    simp only [List.mem_cons, List.not_mem_nil, or_false] at hs
    rcases hs with rfl | rfl | rfl | rfl | rfl | rfl | rfl | rfl <;> exact ⟨by decide, by decide, by decide⟩
  refine ⟨_, _, rfl, rfl, by decide, ?_⟩
  have hcons : List.Forall₂ (ConAs fun _ _ => some 7) [.table "on" [some "?x", some "?y"] false, .table "p" [some "?x"] true, .rel .ne (some "?x") (some "b"), .stateVar (.user "handempty") [] true]
      [.table "on" false ["?x", "?y"], .table "p" true ["?x"], .rel "!=" "?x" "b", .stateVar 7 true] := by
    refine .cons (.table (ns := ["?x", "?y"]) (w _ (by simp)) ?_) (.cons (.table (ns := ["?x"]) (w _ (by simp)) ?_) (.cons (ConAs.rel (c := .ne) (w _ (by simp)) (w _ (by simp))) (.cons (.stateVar rfl) .nil)))
    · intro n hn; simp only [List.mem_cons, List.not_mem_nil, or_false] at hn
      rcases hn with rfl | rfl <;> exact w _ (by simp)
    · intro n hn; simp only [List.mem_cons, List.not_mem_nil, or_false] at hn
      subst hn; exact w _ (by simp)
  obtain ⟨ls, e1, e2⟩ := C101_read_partial (sv := fun _ _ => some 7) (relevant := ["?x"]) (params := ["?x", "?y"])
    (c := ⟨[⟨"?x", "param", 0, 1⟩, ⟨"?y", "param", 0, 1⟩, ⟨"b", "const", 0, 0⟩], [.table "on" [some "?x", some "?y"] false, .table "p" [some "?x"] true, .rel .ne (some "?x") (some "b"), .stateVar (.user "handempty") [] true]⟩)
    (by
      intro v hv
      simp only [List.mem_cons, List.not_mem_nil, or_false] at hv
      rcases hv with rfl | rfl | rfl <;> exact ⟨w _ (by simp), w _ (by simp)⟩)
    (by intro r hr; simp only [List.mem_cons, List.not_mem_nil, or_false] at hr; subst hr; exact w _ (by simp))
    (by intro r hr; simp only [List.mem_cons, List.not_mem_nil, or_false] at hr; rcases hr with rfl | rfl <;> exact w _ (by simp)) hcons
  have := congrArg Prod.fst e1
  dsimp only at this
  rw [← this] at e2
  exact e2

/-! ### Refutations -/

/-- The full statement: a reader gets the same problem back. -/
def C101_full : Prop := ∃ read : AStr → Option CspText, ∀ (sv : PSym → List Term → Option Nat) (relevant params : List String) (c : Csp) (xs : List FileCon),
  (∀ v ∈ c.vars, WordName v.name ∧ WordName v.type) → (∀ r ∈ relevant, WordName r) → (∀ p ∈ params, WordName p) → List.Forall₂ (ConAs sv) c.cons xs →
  ∃ ls, cspFile sv relevant params c = (ls, none) ∧ read (fileText ls) = some ⟨c.vars, relevant, params, xs⟩

/-- All parameters effect-relevant, or none: the same file. -/
theorem C101_relevant_refuted (sv : PSym → List Term → Option Nat) (params : List String) (c : Csp) : cspFile sv params params c = cspFile sv [] params c := by
  have : relevantLines params params = relevantLines [] params := by
    unfold relevantLines
    rw [if_pos rfl]
    split <;> rfl
  unfold cspFile
  rw [this]

/-- So no reader can tell which. -/
theorem C101_refuted : ¬ C101_full := by
  rintro ⟨read, h⟩
  have w : WordName "?x" := ⟨by decide, by decide, by decide⟩
  obtain ⟨l1, e1, r1⟩ := h (fun _ _ => none) ["?x"] ["?x"] ⟨[], []⟩ [] (by simp) (by simpa using w) (by simpa using w) .nil
  obtain ⟨l2, e2, r2⟩ := h (fun _ _ => none) [] ["?x"] ⟨[], []⟩ [] (by simp) (by simp) (by simpa using w) .nil
  rw [C101_relevant_refuted, e2] at e1
  simp only [Prod.mk.injEq, and_true] at e1
  rw [e1, r1] at r2
  simp at r2

theorem joinVars_none : ∀ vs : List (Option String), none ∈ vs → joinVars vs = .error .typeError
  | [], h => by simp at h
  | none :: _, _ => rfl
  | some s :: vs, h => by
    have : none ∈ vs := by simpa using h
    simp [joinVars, joinVars_none vs this]

/-- A table constraint with a nested term: TypeError after the word `table-constraint`, so the closing word is never printed, whatever
the rest of the problem is. -/
theorem C101_none_refuted {sv : PSym → List Term → Option Nat} {relevant params : List String} {c : Csp} {pre post : List CspCon} {xs : List FileCon} {p : String} {vs : List (Option String)} {neg : Bool}
    (hc : c.cons = pre ++ .table p vs neg :: post) (hpre : List.Forall₂ (ConAs sv) pre xs) (hv : none ∈ vs) :
    ∃ ls, cspFile sv relevant params c = (ls, some .typeError) ∧ ls.getLast? = some "table-constraint".toList := by
  have : ∃ ls, cspConsLines sv c.cons = (ls ++ ["table-constraint".toList], some .typeError) := by
    rw [hc]
    clear hc
    induction hpre with
    | nil => exact ⟨[], by simp [cspConsLines, cspConLines, joinVars_none vs hv]⟩
    | cons h _ ih =>
      obtain ⟨ls, e⟩ := ih
      obtain ⟨l1, e1, -⟩ := con_words h
      exact ⟨l1 ++ ls, by simp only [List.cons_append, cspConsLines, e1, e, List.append_assoc]⟩
  obtain ⟨ls, e⟩ := this
  unfold cspFile
  rw [e]
  exact ⟨_, rfl, by rw [← List.append_assoc, List.getLast?_append]; rfl⟩

/-- The nested precondition `p(f(?x))`: the problem is compiled, its file cannot be written. -/
example : ∃ csp ls, cspSchema exCspEnv [⟨"?x", "o"⟩] (.atom (.user "p") [.app "f" [.var ⟨"?x", "o"⟩]]) = .ok csp ∧
    cspFile (fun _ _ => none) ["?x"] ["?x"] csp = (ls, some .typeError) := ⟨_, _, rfl, rfl⟩

/-- A comparison with a nested term is written with the word `None`, which is no variable of the problem. -/
theorem C101_nested_refuted : ∃ csp ls, cspSchema exCspEnv [⟨"?x", "o"⟩] (.atom (.cmp .eq) [.app "f" [.var ⟨"?x", "o"⟩], .var ⟨"?x", "o"⟩]) = .ok csp ∧
    cspFile (fun _ _ => none) ["?x"] ["?x"] csp = (ls, none) ∧ "None = ?x".toList ∈ ls ∧ ∀ v ∈ csp.vars, v.name ≠ "None" := by
  refine ⟨_, _, rfl, rfl, by decide, ?_⟩
  intro v hv
  simp only [Csp.addVar, List.any_nil, Bool.false_eq_true, if_false] at hv
  revert v
  decide

end Tarski

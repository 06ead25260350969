import Verif.PddlDecl
import Verif.PddlEffLemmas
import Verif.PddlInitLemmas
/-! Lemmas: the text layer of domain and instance files (comments, sections, bounds). -/
namespace Tarski

/-! ### Comments -/

theorem lexGo_comment (w : Text) : '\n' ∉ w → ∀ r, lexGo .comment (w ++ '\n' :: r) = lexGo .idle r := by
  induction w with
  | nil =>
    intro _ r
    simp only [List.nil_append, lexGo, lexStep, LexSt.extend, if_true]
    cases lexGo .idle r <;> rfl
  | cons c w ih =>
    intro h r
    have hc : c ≠ '\n' := fun e => h (by simp [e])
    simp only [List.cons_append, lexGo, lexStep, LexSt.extend, hc, if_false]
    rw [ih (fun hw => h (by simp [hw]))]
    cases lexGo .idle r <;> rfl

theorem lexGo_commentLine (w : Text) (h : '\n' ∉ w) (r : Text) :
    lexGo .idle (';' :: (w ++ '\n' :: r)) = lexGo .idle r := by
  have h1 : lexStep .idle ';' = .ok ([], .comment) := by decide
  simp only [lexGo, h1, lexGo_comment w h r]
  cases lexGo .idle r <;> rfl

theorem not_mem_replicate_semi (n : Nat) : '\n' ∉ List.replicate n ';' := by
  intro h
  have := List.eq_of_mem_replicate h
  revert this; decide

theorem lexGo_header {what : Text} (hw : '\n' ∉ what) (r : Text) : lexGo .idle (headerText what ++ r) = lexGo .idle r := by
  have e1 : "\n;;; ".toList = ['\n', ';', ';', ';', ' '] := rfl
  have e2 : " file automatically generated by the Tarski FSTRIPS writer\n;;; \n".toList =
    " file automatically generated by the Tarski FSTRIPS writer".toList ++ '\n' :: ';' :: ([';', ';', ' '] ++ ['\n']) := rfl
  have e3 : List.replicate 40 ';' = ';' :: List.replicate 39 ';' := rfl
  have hn : '\n' ∉ [';', ';', ' '] ++ what ++ " file automatically generated by the Tarski FSTRIPS writer".toList := by
    intro hm
    rcases List.mem_append.1 hm with hm | hm
    · rcases List.mem_append.1 hm with hm | hm
      · revert hm; decide
      · exact hw hm
    · revert hm; decide
  have hb : isBlank '\n' = true := by decide
  have key : headerText what ++ r = '\n' :: ';' :: (List.replicate 39 ';' ++ '\n' :: ';' ::
      (([';', ';', ' '] ++ what ++ " file automatically generated by the Tarski FSTRIPS writer".toList) ++ '\n' :: ';' ::
      ([';', ';', ' '] ++ '\n' :: ';' :: (List.replicate 39 ';' ++ '\n' :: '\n' :: r)))) := by
    rw [headerText, e1, e2, e3]
    simp only [List.append_assoc, List.cons_append, List.nil_append]
  rw [key, lexGo_blank hb, lexGo_commentLine _ (not_mem_replicate_semi 39), lexGo_commentLine _ hn,
    lexGo_commentLine _ (by decide), lexGo_commentLine _ (not_mem_replicate_semi 39), lexGo_blank hb]

theorem textsOf_header {what t : Text} {xs : List SX} (hw : '\n' ∉ what) (h : TextsOf t xs) :
    TextsOf (headerText what ++ t) xs := by
  refine ⟨?_, h.2⟩
  intro rest us hd hr
  rw [List.append_assoc, lexGo_header hw]
  exact h.1 rest us hd hr

/-! ### Sections -/

theorem blank_nl8 : ∀ c ∈ nl8, isBlank c = true := by decide
theorem nl8_ne : nl8 ≠ [] := by decide

theorem textOf_section {k content : Text} {x : SX} {xs : List SX} (hk : TextOf k x) (h : TextsOf content xs) :
    TextOf (sectionText k content) (.list (x :: xs)) := by
  have h1 := textsOf_sep (textOf_single hk) h nl8_ne blank_nl8
  have h2 := textsOf_trail h1 (sep := ['\n', ' ', ' ', ' ', ' ']) (by simp) (by decide)
  have h3 := textOf_paren h2
  have e : "\n    )".toList = ['\n', ' ', ' ', ' ', ' ', ')'] := rfl
  rw [sectionText, e]
  simpa [List.append_assoc] using h3

/-- Trees on lines of their own. -/
theorem textsOf_lines {l : List Text} {xs : List (List SX)} (h : List.Forall₂ TextsOf l xs) :
    TextsOf (joinWith nl8 l) xs.flatten := textsOf_join nl8_ne blank_nl8 h

theorem lines2_eq (l : List Text) : lines2 l = joinWith nl8 l := rfl

/-! ### Bounds -/

theorem lexGo_digits_then {c : Char} {w : Text} (hc : isDig c = true) (hw : ∀ d ∈ w, isDig d = true) (st : Text) (r : Text) :
    lexGo (.num st) (c :: w ++ r) = lexGo (.num (st ++ c :: w)) r :=
  lexGo_num (c :: w) st (by intro d hd; rcases List.mem_cons.1 hd with rfl | h; exacts [hc, hw _ h]) r

/-- Reading an integer up to what follows. -/
theorem lexGo_int (n : Int) (r : Text) : lexGo .idle (intText n ++ r) = lexGo (.num (intText n)) r := by
  cases n with
  | ofNat n =>
    have h := digits_dig n
    have hn : Nat.toDigits 10 n ≠ [] := Nat.toDigits_ne_nil
    simp only [intText]
    cases hd : Nat.toDigits 10 n with
    | nil => exact absurd hd hn
    | cons c w =>
      rw [hd] at h
      have hc := h c (by simp)
      have h2 := lexGo_num w [c] (fun d hd => h d (by simp [hd])) r
      simp only [List.singleton_append] at h2
      simp only [List.cons_append, lexGo, lexStep, LexSt.extend, LexSt.flush, lexStart_dig hc, List.nil_append, h2]
      cases lexGo (.num (c :: w)) r <;> rfl
  | negSucc n =>
    have h := digits_dig (n + 1)
    have hn : Nat.toDigits 10 (n + 1) ≠ [] := Nat.toDigits_ne_nil
    simp only [intText]
    cases hd : Nat.toDigits 10 (n + 1) with
    | nil => exact absurd hd hn
    | cons c w =>
      rw [hd] at h
      have hc := h c (by simp)
      have h2 := lexGo_num w ['-', c] (fun d hd => h d (by simp [hd])) r
      have h3 : lexStep .idle '-' = .ok ([], .minus) := by decide
      have h4 : lexStep .minus c = .ok ([], .num ['-', c]) := by simp [lexStep, LexSt.extend, hc]
      simp only [List.cons_append, List.nil_append] at h2
      simp only [List.cons_append, lexGo, h3, h4, h2, List.nil_append]
      cases lexGo (.num ('-' :: c :: w)) r <;> rfl

theorem lexGo_cons_step {st st' : LexSt} {c : Char} {cs : Text} {ts us : List PTok} (h1 : lexStep st c = .ok (ts, st'))
    (h2 : lexGo st' cs = .ok us) : lexGo st (c :: cs) = .ok (ts ++ us) := by
  simp only [lexGo, h1, h2]

/-- `int[l..u]` -/
def rangeText (l u : Int) : Text := ['i', 'n', 't', '['] ++ intText l ++ ['.', '.'] ++ intText u ++ [']']

theorem lexesTo_range (l u : Int) : LexesTo (rangeText l u)
    [.kw .kInt, .lbrk, .num (intText l), .dots, .num (intText u), .rbrk] := by
  intro rest us hd h
  have h5 : lexGo .idle (']' :: rest) = .ok (.rbrk :: us) := by
    have : lexStep .idle ']' = .ok ([.rbrk], .idle) := by decide
    simp [lexGo, this, h]
  have h4 : lexGo (.num (intText u)) (']' :: rest) = .ok (.num (intText u) :: .rbrk :: us) := by
    have : lexStep (.num (intText u)) ']' = .ok ([.num (intText u), .rbrk], .idle) := by
      have e1 : isDig ']' = false := by decide
      have e2 : lexStart ']' = .ok ([.rbrk], .idle) := by decide
      simp [lexStep, LexSt.extend, e1, e2, LexSt.flush]
    simp [lexGo, this, h]
  have h3 : lexGo (.num (intText l)) ('.' :: '.' :: (intText u ++ ']' :: rest)) =
      .ok (.num (intText l) :: .dots :: .num (intText u) :: .rbrk :: us) := by
    have e1 : isDig '.' = false := by decide
    have s1 : lexStep (.num (intText l)) '.' = .ok ([], .numdot (intText l)) := by
      simp [lexStep, LexSt.extend, e1]
    have s2 : lexStep (.numdot (intText l)) '.' = .ok ([.num (intText l), .dots], .idle) := by
      simp [lexStep, LexSt.extend, e1]
    exact lexGo_cons_step s1 (lexGo_cons_step s2 ((lexGo_int u _).trans h4))
  have h2 : lexGo .idle (['i', 'n', 't', '['] ++ (intText l ++ '.' :: '.' :: (intText u ++ ']' :: rest))) =
      .ok (.kw .kInt :: .lbrk :: .num (intText l) :: .dots :: .num (intText u) :: .rbrk :: us) := by
    have s1 : lexStep .idle 'i' = .ok ([], .word ['i']) := by decide
    have s2 : lexStep (.word ['i']) 'n' = .ok ([], .word ['i', 'n']) := by decide
    have s3 : lexStep (.word ['i', 'n']) 't' = .ok ([], .word ['i', 'n', 't']) := by decide
    have s4 : lexStep (.word ['i', 'n', 't']) '[' = .ok ([.kw .kInt, .lbrk], .idle) := by decide
    exact lexGo_cons_step s1 (lexGo_cons_step s2 (lexGo_cons_step s3 (lexGo_cons_step s4 ((lexGo_int l _).trans h3))))
  simpa [rangeText, List.append_assoc] using h2

theorem textsOf_range (l u : Int) : TextsOf (rangeText l u)
    [.tok (.kw .kInt), .tok .lbrk, .tok (.num (intText l)), .tok .dots, .tok (.num (intText u)), .tok .rbrk] :=
  ⟨by simpa [SX.flats, SX.flat] using lexesTo_range l u, by simp [SX.Propers, SX.Proper]⟩

end Tarski

import Verif.PddlWrite
import Mathlib.Tactic.Common
/-! Lemmas: the lexer and the grouping by parentheses on the texts that the writer produces. -/
namespace Tarski

/-- The text starts with a character that ends every token, or is empty. -/
def Delim (rest : Text) : Prop :=
  ∀ c cs, rest = c :: cs → isBlank c = true ∨ c = '(' ∨ c = ')'

/-- The text is read as the given tokens whenever it is followed by a delimiter. -/
def LexesTo (t : Text) (ts : List PTok) : Prop :=
  ∀ rest us, Delim rest → lexGo .idle rest = .ok us → lexGo .idle (t ++ rest) = .ok (ts ++ us)

theorem delim_nil : Delim [] := by intro c cs h; cases h
theorem delim_blank {c : Char} (h : isBlank c = true) (l : Text) : Delim (c :: l) := by
  intro d ds e; cases e; exact .inl h
theorem delim_lpar (l : Text) : Delim ('(' :: l) := by
  intro d ds e; cases e; exact .inr (.inl rfl)
theorem delim_rpar (l : Text) : Delim (')' :: l) := by
  intro d ds e; cases e; exact .inr (.inr rfl)

theorem lexGo_blank {c : Char} (h : isBlank c = true) (l : Text) : lexGo .idle (c :: l) = lexGo .idle l := by
  simp only [lexGo, lexStep, LexSt.extend, LexSt.flush, lexStart, h, if_true]
  cases lexGo .idle l <;> simp

theorem lexGo_lpar (l : Text) (us : List PTok) (h : lexGo .idle l = .ok us) :
    lexGo .idle ('(' :: l) = .ok (.lpar :: us) := by
  have : lexStep .idle '(' = .ok ([.lpar], .idle) := by decide
  simp [lexGo, this, h]

theorem lexGo_rpar (l : Text) (us : List PTok) (h : lexGo .idle l = .ok us) :
    lexGo .idle (')' :: l) = .ok (.rpar :: us) := by
  have : lexStep .idle ')' = .ok ([.rpar], .idle) := by decide
  simp [lexGo, this, h]

/-- How a delimiter is treated in a state in which it cannot extend the token. -/
theorem lexGo_flush {st : LexSt} {ts : List PTok} (hf : st.flush = .ok ts)
    (hx : ∀ c, (isBlank c = true ∨ c = '(' ∨ c = ')') → st.extend c = none)
    {rest : Text} {us : List PTok} (hd : Delim rest) (h : lexGo .idle rest = .ok us) :
    lexGo st rest = .ok (ts ++ us) := by
  cases rest with
  | nil =>
    simp only [lexGo, LexSt.flush, Except.ok.injEq] at h
    subst h
    simpa [lexGo] using hf
  | cons c cs =>
    have hc := hx c (hd c cs rfl)
    simp only [lexGo, lexStep, LexSt.extend, LexSt.flush, List.nil_append] at h
    simp only [lexGo, lexStep, hc, hf]
    cases hs : lexStart c with
    | error e => simp [hs] at h
    | ok p =>
      obtain ⟨vs, st'⟩ := p
      simp only [hs] at h ⊢
      cases hg : lexGo st' cs with
      | error e => simp [hg] at h
      | ok ws =>
        simp only [hg, Except.ok.injEq] at h ⊢
        simp [← h]

theorem delim_not_word {c : Char} (h : isBlank c = true ∨ c = '(' ∨ c = ')') : isWordChar c = false := by
  rcases h with h | h | h
  · simp only [isBlank, Bool.or_eq_true, beq_iff_eq] at h
    rcases h with ((h | h) | h) | h <;> subst h <;> decide
  · subst h; decide
  · subst h; decide

theorem dig_word {c : Char} (h : isDig c = true) : isWordChar c = true := by
  simp [isWordChar, h]

theorem delim_not_dig {c : Char} (h : isBlank c = true ∨ c = '(' ∨ c = ')') : isDig c = false := by
  cases hd : isDig c with
  | false => rfl
  | true => have := delim_not_word h; simp [dig_word hd] at this

theorem delim_not_dot {c : Char} (h : isBlank c = true ∨ c = '(' ∨ c = ')') : c ≠ '.' := by
  rintro rfl
  rcases h with h | h | h <;> revert h <;> decide

theorem lexGo_word (w : Text) : ∀ acc : Text, (∀ c ∈ w, isWordChar c = true) → ∀ rest,
    lexGo (.word acc) (w ++ rest) = lexGo (.word (acc ++ w)) rest := by
  induction w with
  | nil => intro acc _ rest; simp
  | cons c w ih =>
    intro acc h rest
    have hc : isWordChar c = true := h c (by simp)
    simp only [List.cons_append, lexGo, lexStep, LexSt.extend, hc, if_true, List.nil_append]
    rw [ih (acc ++ [c]) (fun d hd => h d (by simp [hd])) rest]
    simp only [List.append_assoc, List.singleton_append]
    cases lexGo (.word (acc ++ c :: w)) rest <;> rfl

theorem lexGo_var (w : Text) : ∀ acc : Text, (∀ c ∈ w, isWordChar c = true) → ∀ rest,
    lexGo (.var acc) (w ++ rest) = lexGo (.var (acc ++ w)) rest := by
  induction w with
  | nil => intro acc _ rest; simp
  | cons c w ih =>
    intro acc h rest
    have hc : isWordChar c = true := h c (by simp)
    simp only [List.cons_append, lexGo, lexStep, LexSt.extend, hc, if_true, List.nil_append]
    rw [ih (acc ++ [c]) (fun d hd => h d (by simp [hd])) rest]
    simp only [List.append_assoc, List.singleton_append]
    cases lexGo (.var (acc ++ c :: w)) rest <;> rfl

theorem lexGo_num (w : Text) : ∀ acc : Text, (∀ c ∈ w, isDig c = true) → ∀ rest,
    lexGo (.num acc) (w ++ rest) = lexGo (.num (acc ++ w)) rest := by
  induction w with
  | nil => intro acc _ rest; simp
  | cons c w ih =>
    intro acc h rest
    have hc : isDig c = true := h c (by simp)
    simp only [List.cons_append, lexGo, lexStep, LexSt.extend, hc, if_true, List.nil_append]
    rw [ih (acc ++ [c]) (fun d hd => h d (by simp [hd])) rest]
    simp only [List.append_assoc, List.singleton_append]
    cases lexGo (.num (acc ++ c :: w)) rest <;> rfl

/-- A letter starts a word. -/
theorem lexStart_letter {c : Char} (h : isLetter c = true) : lexStart c = .ok ([], .word [c]) := by
  have ne : ∀ d, isLetter d = false → c ≠ d := by rintro d hd rfl; simp [h] at hd
  have hb : isBlank c = false := by
    simp only [isBlank, Bool.or_eq_false_iff, beq_eq_false_iff_ne]
    exact ⟨⟨⟨ne _ (by decide), ne _ (by decide)⟩, ne _ (by decide)⟩, ne _ (by decide)⟩
  simp [lexStart, hb, h, ne '(' (by decide), ne ')' (by decide), ne '[' (by decide), ne ']' (by decide),
    ne '=' (by decide), ne '<' (by decide), ne '>' (by decide), ne '-' (by decide), ne '.' (by decide),
    ne '?' (by decide), ne '@' (by decide), ne ':' (by decide), ne ';' (by decide), ne '*' (by decide),
    ne '+' (by decide), ne '/' (by decide), ne '^' (by decide)]

/-- A digit starts a number. -/
theorem lexStart_dig {c : Char} (h : isDig c = true) : lexStart c = .ok ([], .num [c]) := by
  have ne : ∀ d, isDig d = false → c ≠ d := by rintro d hd rfl; simp [h] at hd
  have hl : isLetter c = false := by
    simp only [isDig, isLetter, Bool.and_eq_true, decide_eq_true_eq, Bool.or_eq_false_iff,
      Bool.and_eq_false_iff, decide_eq_false_iff_not] at h ⊢
    constructor <;> left <;> intro hc
    · exact absurd (Char.le_trans hc h.2) (by decide)
    · exact absurd (Char.le_trans hc h.2) (by decide)
  have hb : isBlank c = false := by
    simp only [isBlank, Bool.or_eq_false_iff, beq_eq_false_iff_ne]
    exact ⟨⟨⟨ne _ (by decide), ne _ (by decide)⟩, ne _ (by decide)⟩, ne _ (by decide)⟩
  simp [lexStart, hb, h, hl, ne '(' (by decide), ne ')' (by decide), ne '[' (by decide), ne ']' (by decide),
    ne '=' (by decide), ne '<' (by decide), ne '>' (by decide), ne '-' (by decide), ne '.' (by decide),
    ne '?' (by decide), ne '@' (by decide), ne ':' (by decide), ne ';' (by decide), ne '*' (by decide),
    ne '+' (by decide), ne '/' (by decide), ne '^' (by decide)]

theorem lexesTo_word {c : Char} {w : Text} (hc : isLetter c = true) (hw : ∀ d ∈ w, isWordChar d = true) :
    LexesTo (c :: w) [wordTok (String.ofList (c :: w))] := by
  intro rest us hd h
  have h1 : lexGo (.word (c :: w)) rest = .ok ([wordTok (String.ofList (c :: w))] ++ us) := by
    apply lexGo_flush (by rfl) _ hd h
    intro d hd'
    simp [LexSt.extend, delim_not_word hd']
  have h2 := lexGo_word w [c] hw rest
  simp only [List.singleton_append] at h2
  simp only [List.cons_append, lexGo, lexStep, LexSt.extend, LexSt.flush, lexStart_letter hc, List.nil_append, h2, h1]

theorem lexesTo_var {c : Char} {w : Text} (hc : isLetter c = true) (hw : ∀ d ∈ w, isWordChar d = true) :
    LexesTo ('?' :: c :: w) [.var (String.ofList ('?' :: c :: w))] := by
  intro rest us hd h
  have h1 : lexGo (.var ('?' :: c :: w)) rest = .ok ([.var (String.ofList ('?' :: c :: w))] ++ us) := by
    apply lexGo_flush (by rfl) _ hd h
    intro d hd'
    simp [LexSt.extend, delim_not_word hd']
  have h2 := lexGo_var w ['?', c] hw rest
  have h3 : lexStep .idle '?' = .ok ([], .qmark) := by decide
  have h4 : lexStep .qmark c = .ok ([], .var ['?', c]) := by simp [lexStep, LexSt.extend, hc]
  simp only [List.cons_append, List.nil_append] at h2
  simp [lexGo, h3, h4, h2, h1]

theorem lexesTo_digits {c : Char} {w : Text} (hc : isDig c = true) (hw : ∀ d ∈ w, isDig d = true) :
    LexesTo (c :: w) [.num (c :: w)] := by
  intro rest us hd h
  have h1 : lexGo (.num (c :: w)) rest = .ok ([.num (c :: w)] ++ us) := by
    apply lexGo_flush (by rfl) _ hd h
    intro d hd'
    simp [LexSt.extend, delim_not_dig hd', delim_not_dot hd']
  have h2 := lexGo_num w [c] hw rest
  simp only [List.singleton_append] at h2
  simp only [List.cons_append, lexGo, lexStep, LexSt.extend, LexSt.flush, lexStart_dig hc, List.nil_append, h2, h1]

theorem lexesTo_negDigits {c : Char} {w : Text} (hc : isDig c = true) (hw : ∀ d ∈ w, isDig d = true) :
    LexesTo ('-' :: c :: w) [.num ('-' :: c :: w)] := by
  intro rest us hd h
  have h1 : lexGo (.num ('-' :: c :: w)) rest = .ok ([.num ('-' :: c :: w)] ++ us) := by
    apply lexGo_flush (by rfl) _ hd h
    intro d hd'
    simp [LexSt.extend, delim_not_dig hd', delim_not_dot hd']
  have h2 := lexGo_num w ['-', c] hw rest
  have h3 : lexStep .idle '-' = .ok ([], .minus) := by decide
  have h4 : lexStep .minus c = .ok ([], .num ['-', c]) := by simp [lexStep, LexSt.extend, hc]
  simp only [List.cons_append, List.nil_append] at h2
  simp [lexGo, h3, h4, h2, h1]

theorem isDig_of_isDigit {c : Char} (h : c.isDigit = true) : isDig c = true := by
  simp only [Char.isDigit, ge_iff_le, Bool.and_eq_true, decide_eq_true_eq] at h
  simp only [isDig, Bool.and_eq_true, decide_eq_true_eq]
  exact h

theorem digits_dig (n : Nat) : ∀ c ∈ Nat.toDigits 10 n, isDig c = true := fun _ hc =>
  isDig_of_isDigit (Nat.isDigit_of_mem_toDigits (by decide) (by decide) hc)

theorem lexesTo_int (n : Int) : LexesTo (intText n) [.num (intText n)] := by
  cases n with
  | ofNat n =>
    have h := digits_dig n
    have hn : Nat.toDigits 10 n ≠ [] := Nat.toDigits_ne_nil
    simp only [intText]
    cases hd : Nat.toDigits 10 n with
    | nil => exact absurd hd hn
    | cons c w => rw [hd] at h; exact lexesTo_digits (h c (by simp)) (fun d hd => h d (by simp [hd]))
  | negSucc n =>
    have h := digits_dig (n + 1)
    have hn : Nat.toDigits 10 (n + 1) ≠ [] := Nat.toDigits_ne_nil
    simp only [intText]
    cases hd : Nat.toDigits 10 (n + 1) with
    | nil => exact absurd hd hn
    | cons c w => rw [hd] at h; exact lexesTo_negDigits (h c (by simp)) (fun d hd => h d (by simp [hd]))

theorem lexesTo_dash : LexesTo ['-'] [.dash] := by
  intro rest us hd h
  have h1 : lexGo .minus rest = .ok ([.dash] ++ us) := by
    apply lexGo_flush (by rfl) _ hd h
    intro d hd'
    simp [LexSt.extend, delim_not_dig hd']
  have h3 : lexStep .idle '-' = .ok ([], .minus) := by decide
  simp [lexGo, h3, h1]

theorem lexesTo_one {c : Char} {t : PTok} (hs : lexStep .idle c = .ok ([t], .idle)) : LexesTo [c] [t] := by
  intro rest us hd h
  simp [lexGo, hs, h]

theorem lexesTo_lt : LexesTo ['<'] [.cmp .lt] := by
  intro rest us hd h
  have h1 : lexGo .lt rest = .ok ([.cmp .lt] ++ us) := by
    apply lexGo_flush (by rfl) _ hd h
    intro d hd'
    have : d ≠ '=' := by
      rintro rfl
      rcases hd' with h | h | h <;> revert h <;> decide
    simp [LexSt.extend, this]
  have h3 : lexStep .idle '<' = .ok ([], .lt) := by decide
  simp [lexGo, h3, h1]

theorem lexesTo_gt : LexesTo ['>'] [.cmp .gt] := by
  intro rest us hd h
  have h1 : lexGo .gt rest = .ok ([.cmp .gt] ++ us) := by
    apply lexGo_flush (by rfl) _ hd h
    intro d hd'
    have : d ≠ '=' := by
      rintro rfl
      rcases hd' with h | h | h <;> revert h <;> decide
    simp [LexSt.extend, this]
  have h3 : lexStep .idle '>' = .ok ([], .gt) := by decide
  simp [lexGo, h3, h1]

theorem lexesTo_cmp (c : Cmp) (hc : c ≠ .ne) : LexesTo c.text [.cmp c] := by
  cases c with
  | eq => exact lexesTo_one (by decide)
  | ne => exact absurd rfl hc
  | lt => exact lexesTo_lt
  | le =>
    intro rest us hd h
    have h3 : lexStep .idle '<' = .ok ([], .lt) := by decide
    have h4 : lexStep .lt '=' = .ok ([.cmp .le], .idle) := by decide
    simp [Cmp.text, lexGo, h3, h4, h]
  | gt => exact lexesTo_gt
  | ge =>
    intro rest us hd h
    have h3 : lexStep .idle '>' = .ok ([], .gt) := by decide
    have h4 : lexStep .gt '=' = .ok ([.cmp .ge], .idle) := by decide
    simp [Cmp.text, lexGo, h3, h4, h]

theorem lexesTo_nil : LexesTo [] [] := by intro rest us _ h; simpa using h

/-- Texts separated by blanks. -/
theorem lexesTo_sep {a b sep : Text} {x y : List PTok} (ha : LexesTo a x) (hb : LexesTo b y)
    (hne : sep ≠ []) (hs : ∀ c ∈ sep, isBlank c = true) : LexesTo (a ++ sep ++ b) (x ++ y) := by
  intro rest us hd h
  have h1 := hb rest us hd h
  have h2 : ∀ sep : Text, (∀ c ∈ sep, isBlank c = true) → lexGo .idle (sep ++ (b ++ rest)) = .ok (y ++ us) := by
    intro sep
    induction sep with
    | nil => intro _; simpa using h1
    | cons c sep ih =>
      intro hs
      rw [List.cons_append, lexGo_blank (hs c (by simp))]
      exact ih (fun d hd => hs d (by simp [hd]))
  have h3 : Delim (sep ++ (b ++ rest)) := by
    cases sep with
    | nil => exact absurd rfl hne
    | cons c sep => exact delim_blank (hs c (by simp)) _
  have := ha _ _ h3 (h2 sep hs)
  simpa [List.append_assoc] using this

/-- Blanks after a text. -/
theorem lexesTo_trail {a sep : Text} {x : List PTok} (ha : LexesTo a x)
    (hne : sep ≠ []) (hs : ∀ c ∈ sep, isBlank c = true) : LexesTo (a ++ sep) x := by
  have := lexesTo_sep ha lexesTo_nil hne hs
  simpa using this

/-- Blanks before a text. -/
theorem lexesTo_lead {a sep : Text} {x : List PTok} (ha : LexesTo a x)
    (hs : ∀ c ∈ sep, isBlank c = true) : LexesTo (sep ++ a) x := by
  cases sep with
  | nil => simpa using ha
  | cons c sep =>
    have := lexesTo_sep lexesTo_nil ha (sep := c :: sep) (by simp) hs
    simpa using this

theorem lexesTo_paren {a : Text} {x : List PTok} (ha : LexesTo a x) :
    LexesTo ('(' :: a ++ [')']) (.lpar :: x ++ [.rpar]) := by
  intro rest us hd h
  have h1 := lexGo_rpar rest us h
  have h2 := ha _ _ (delim_rpar rest) h1
  have h3 := lexGo_lpar _ _ h2
  simpa [List.append_assoc] using h3

/-- A text that starts with a parenthesis may follow immediately. -/
theorem lexesTo_then_lpar {a b : Text} {x y : List PTok} (ha : LexesTo a x)
    (hb : LexesTo ('(' :: b) y) : LexesTo (a ++ '(' :: b) (x ++ y) := by
  intro rest us hd h
  have h1 := hb rest us hd h
  have := ha _ _ (delim_lpar _) h1
  simpa [List.append_assoc] using this

theorem lexesTo_join {sep : Text} (hne : sep ≠ []) (hs : ∀ c ∈ sep, isBlank c = true) :
    ∀ {l : List Text} {xs : List (List PTok)}, List.Forall₂ LexesTo l xs → LexesTo (joinWith sep l) xs.flatten
  | _, _, .nil => lexesTo_nil
  | _, _, .cons (l₁ := []) h hl => by
    cases hl
    simpa [joinWith] using h
  | _, _, .cons (l₁ := b :: l) h hl => by
    cases hl with
    | cons h2 hl2 =>
      have ih := lexesTo_join hne hs (List.Forall₂.cons h2 hl2)
      simpa [joinWith] using lexesTo_sep h ih hne hs

/-! ### Trees -/

mutual
/-- The tokens of a tree. -/
def SX.flat : SX → List PTok
  | .tok t => [t]
  | .list xs => .lpar :: SX.flats xs ++ [.rpar]
def SX.flats : List SX → List PTok
  | [] => []
  | x :: xs => SX.flat x ++ SX.flats xs
end

mutual
/-- No leaf is a parenthesis. -/
def SX.Proper : SX → Prop
  | .tok t => t ≠ .lpar ∧ t ≠ .rpar
  | .list xs => SX.Propers xs
def SX.Propers : List SX → Prop
  | [] => True
  | x :: xs => SX.Proper x ∧ SX.Propers xs
end

mutual
theorem sxGo_flat : ∀ (x : SX), x.Proper → ∀ (stack : List (List SX)) (cur : List SX) (rest : List PTok),
    sxGo stack cur (x.flat ++ rest) = sxGo stack (cur ++ [x]) rest
  | .tok t, h, stack, cur, rest => by
    simp only [SX.flat, List.singleton_append]
    obtain ⟨h1, h2⟩ := h
    cases t <;> first | exact absurd rfl h1 | exact absurd rfl h2 | simp [sxGo]
  | .list xs, h, stack, cur, rest => by
    simp only [SX.flat, List.cons_append, List.append_assoc, List.nil_append, sxGo]
    rw [sxGo_flats xs h (cur :: stack) [] (.rpar :: rest)]
    simp [sxGo]
theorem sxGo_flats : ∀ (xs : List SX), SX.Propers xs → ∀ (stack : List (List SX)) (cur : List SX) (rest : List PTok),
    sxGo stack cur (SX.flats xs ++ rest) = sxGo stack (cur ++ xs) rest
  | [], _, stack, cur, rest => by simp [SX.flats]
  | x :: xs, h, stack, cur, rest => by
    simp only [SX.flats, List.append_assoc]
    rw [sxGo_flat x h.1, sxGo_flats xs h.2]
    simp
end

/-- The text is the tree. -/
def TextOf (t : Text) (x : SX) : Prop := LexesTo t x.flat ∧ x.Proper

/-- The text is the sequence of trees. -/
def TextsOf (t : Text) (xs : List SX) : Prop := LexesTo t (SX.flats xs) ∧ SX.Propers xs

theorem readTrees_textsOf {t : Text} {xs : List SX} (h : TextsOf t xs) : readTrees t = .ok xs := by
  have h1 := h.1 [] [] delim_nil (by rfl)
  simp only [List.append_nil] at h1
  have h2 := sxGo_flats xs h.2 [] [] []
  simp only [List.append_nil, List.nil_append] at h2
  simp [readTrees, lexPddl, h1, h2, sxGo]

theorem textOf_single {t : Text} {x : SX} (h : TextOf t x) : TextsOf t [x] := by
  refine ⟨?_, ?_⟩
  · simpa [SX.flats] using h.1
  · exact ⟨h.2, trivial⟩

theorem readTrees_textOf {t : Text} {x : SX} (h : TextOf t x) : readTrees t = .ok [x] :=
  readTrees_textsOf (textOf_single h)

theorem textOf_tok {t : Text} {k : PTok} (h : LexesTo t [k]) (h1 : k ≠ .lpar) (h2 : k ≠ .rpar) :
    TextOf t (.tok k) := ⟨by simpa [SX.flat] using h, h1, h2⟩

theorem flats_append (xs ys : List SX) : SX.flats (xs ++ ys) = SX.flats xs ++ SX.flats ys := by
  induction xs with
  | nil => simp [SX.flats]
  | cons x xs ih => simp [SX.flats, ih]

theorem propers_append {xs ys : List SX} : SX.Propers (xs ++ ys) ↔ SX.Propers xs ∧ SX.Propers ys := by
  induction xs with
  | nil => simp [SX.Propers]
  | cons x xs ih => simp [SX.Propers, ih, and_assoc]

theorem textsOf_nil : TextsOf [] [] := ⟨by simpa [SX.flats] using lexesTo_nil, trivial⟩

theorem textsOf_sep {a b sep : Text} {xs ys : List SX} (ha : TextsOf a xs) (hb : TextsOf b ys)
    (hne : sep ≠ []) (hs : ∀ c ∈ sep, isBlank c = true) : TextsOf (a ++ sep ++ b) (xs ++ ys) :=
  ⟨by rw [flats_append]; exact lexesTo_sep ha.1 hb.1 hne hs, propers_append.mpr ⟨ha.2, hb.2⟩⟩

theorem textsOf_lead {a sep : Text} {xs : List SX} (ha : TextsOf a xs)
    (hs : ∀ c ∈ sep, isBlank c = true) : TextsOf (sep ++ a) xs := ⟨lexesTo_lead ha.1 hs, ha.2⟩

theorem textsOf_trail {a sep : Text} {xs : List SX} (ha : TextsOf a xs)
    (hne : sep ≠ []) (hs : ∀ c ∈ sep, isBlank c = true) : TextsOf (a ++ sep) xs := ⟨lexesTo_trail ha.1 hne hs, ha.2⟩

theorem textOf_paren {a : Text} {xs : List SX} (ha : TextsOf a xs) : TextOf ('(' :: a ++ [')']) (.list xs) :=
  ⟨by simpa [SX.flat] using lexesTo_paren ha.1, ha.2⟩

theorem textsOf_join {sep : Text} (hne : sep ≠ []) (hs : ∀ c ∈ sep, isBlank c = true) :
    ∀ {l : List Text} {xs : List (List SX)}, List.Forall₂ TextsOf l xs → TextsOf (joinWith sep l) xs.flatten
  | _, _, .nil => textsOf_nil
  | _, _, .cons (l₁ := []) h hl => by
    cases hl
    simpa [joinWith] using h
  | _, _, .cons (l₁ := b :: l) h hl => by
    cases hl with
    | cons h2 hl2 =>
      have ih := textsOf_join hne hs (List.Forall₂.cons h2 hl2)
      simpa [joinWith] using textsOf_sep h ih hne hs

theorem blank_sp : ∀ c ∈ ([' '] : Text), isBlank c = true := by decide

/-- A list of trees printed one after the other, separated by single blanks. -/
theorem textsOf_spaced {l : List Text} {xs : List SX} (h : List.Forall₂ TextOf l xs) :
    TextsOf (joinWith [' '] l) xs := by
  have : List.Forall₂ TextsOf l (xs.map (fun x => [x])) := by
    induction h with
    | nil => exact .nil
    | cons h1 _ ih => exact .cons (textOf_single h1) ih
  have h2 := textsOf_join (sep := [' ']) (by simp) blank_sp this
  have h3 : (xs.map (fun x => [x])).flatten = xs := by
    clear h this h2
    induction xs with
    | nil => rfl
    | cons x xs ih => simp [ih]
  rwa [h3] at h2

/-- `(head arg ... arg)` with the blank that the writer always puts after the head. -/
theorem textOf_call {hd : Text} {x : SX} {l : List Text} {xs : List SX} (h : TextOf hd x)
    (hl : List.Forall₂ TextOf l xs) : TextOf ('(' :: hd ++ ' ' :: joinWith [' '] l ++ [')']) (.list (x :: xs)) := by
  have h1 := textsOf_sep (sep := [' ']) (textOf_single h) (textsOf_spaced hl) (by simp) blank_sp
  have h2 := textOf_paren h1
  simpa [List.append_assoc] using h2

/-! ### Numbers -/

theorem dot_not_mem_int (n : Int) : '.' ∉ intText n := by
  intro h
  have hd : ∀ m : Nat, '.' ∉ Nat.toDigits 10 m := fun m hm => by
    have := digits_dig m _ hm
    revert this; decide
  cases n with
  | ofNat n => exact hd n (by simpa [intText] using h)
  | negSucc n =>
    simp only [intText, List.mem_cons] at h
    rcases h with h | h
    · revert h; decide
    · exact hd _ h

end Tarski

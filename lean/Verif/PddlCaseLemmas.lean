import Verif.PddlCase
import Mathlib.Tactic.Common
/-! Lemmas about texts, tokens and trees whose letters are lowercased. -/
namespace Tarski

/-! ### Letters -/

def uppers : List Char := ['A','B','C','D','E','F','G','H','I','J','K','L','M','N','O','P','Q','R','S','T','U','V','W','X','Y','Z']

theorem mem_uppers (c : Char) (h : lowerC c ≠ c) : c ∈ uppers := by
  unfold lowerC at h
  split at h
  · rename_i hc
    simp only [Bool.and_eq_true, decide_eq_true_eq] at hc
    have h1 : 65 ≤ c.toNat := hc.1
    have h2 : c.toNat ≤ 90 := hc.2
    have h3 : c = Char.ofNat c.toNat := (Char.ofNat_toNat c).symm
    generalize c.toNat = n at h1 h2 h3
    subst h3
    have : ∀ m, m ≤ 90 → 65 ≤ m → Char.ofNat m ∈ uppers := by decide
    exact this n h2 h1
  · exact absurd rfl h

theorem lowerC_ind {P : Char → Char → Prop} (h0 : ∀ c, P c c) (h1 : ∀ c ∈ uppers, P c (lowerC c)) (c : Char) :
    P c (lowerC c) := by
  by_cases h : lowerC c = c
  · rw [h]; exact h0 c
  · exact h1 c (mem_uppers c h)

theorem isLetter_lowerC (c : Char) : isLetter (lowerC c) = isLetter c :=
  lowerC_ind (P := fun c d => isLetter d = isLetter c) (fun _ => rfl) (by decide) c
theorem isDig_lowerC (c : Char) : isDig (lowerC c) = isDig c :=
  lowerC_ind (P := fun c d => isDig d = isDig c) (fun _ => rfl) (by decide) c
theorem isWordChar_lowerC (c : Char) : isWordChar (lowerC c) = isWordChar c :=
  lowerC_ind (P := fun c d => isWordChar d = isWordChar c) (fun _ => rfl) (by decide) c
theorem lowerC_lowerC (c : Char) : lowerC (lowerC c) = lowerC c :=
  lowerC_ind (P := fun c d => lowerC d = lowerC c) (fun _ => rfl) (by decide) c
theorem colonChar_lowerC (c : Char) : (isLetter (lowerC c) || lowerC c == '-') = (isLetter c || c == '-') :=
  lowerC_ind (P := fun c d => (isLetter d || d == '-') = (isLetter c || c == '-')) (fun _ => rfl) (by decide) c
theorem lowerC_dig (c : Char) (h : isDig c = true) : lowerC c = c := by
  by_contra hc
  have : ∀ c ∈ uppers, isDig c = false := by decide
  rw [this c (mem_uppers c hc)] at h; cases h
theorem lowerC_eq_dot (c : Char) : lowerC c = '.' ↔ c = '.' :=
  lowerC_ind (P := fun c d => d = '.' ↔ c = '.') (fun _ => Iff.rfl) (by decide) c
theorem lowerC_eq_eq (c : Char) : lowerC c = '=' ↔ c = '=' :=
  lowerC_ind (P := fun c d => d = '=' ↔ c = '=') (fun _ => Iff.rfl) (by decide) c
theorem lowerC_eq_nl (c : Char) : lowerC c = '\n' ↔ c = '\n' :=
  lowerC_ind (P := fun c d => d = '\n' ↔ c = '\n') (fun _ => Iff.rfl) (by decide) c

theorem lowerS_ofList (w : Text) : lowerS (String.ofList w) = String.ofList (w.map lowerC) := by simp [lowerS]

theorem lowerS_idem (s : String) : lowerS (lowerS s) = lowerS s := by
  simp [lowerS, List.map_map, Function.comp_def, lowerC_lowerC]

/-! ### Tokens -/

/-- A token with the letters of its text in lower case. -/
def PTok.lower : PTok → PTok
  | .name s => .name (lowerS s)
  | .ext s => .ext (lowerS s)
  | .var s => .var (lowerS s)
  | t => t

/-- A state of the lexer with the letters read so far in lower case. -/
def LexSt.lower : LexSt → LexSt
  | .word w => .word (w.map lowerC)
  | .var w => .var (w.map lowerC)
  | .ext w => .ext (w.map lowerC)
  | .colon w => .colon (w.map lowerC)
  | st => st

def lowerR (r : List PTok × LexSt) : List PTok × LexSt := (r.1.map PTok.lower, r.2.lower)

theorem flushLC_lower (st : LexSt) : st.lower.flushLC = st.flushLC.map (List.map PTok.lower) := by
  cases st <;> simp only [LexSt.lower, LexSt.flushLC, LexSt.flush]
  case word w =>
    rw [← lowerS_ofList, lowerS_idem]
    cases reserved (lowerS (String.ofList w)) <;> rfl
  case colon w =>
    rw [← lowerS_ofList, lowerS_idem]
    cases h : colonTok (lowerS (String.ofList w)) with
    | error e => rfl
    | ok t =>
      unfold colonTok at h
      split at h
      · cases h; rfl
      · split at h
        · cases h; rfl
        · cases h
  all_goals (first | rfl | (simp [Except.map, PTok.lower, lowerS_ofList]))

theorem extend_lower (st : LexSt) (c : Char) : st.lower.extend (lowerC c) = (st.extend c).map lowerR := by
  cases st
  case colon w =>
    simp only [LexSt.lower, LexSt.extend]
    rw [colonChar_lowerC]
    split <;> simp [lowerR, LexSt.lower]
  all_goals simp only [LexSt.lower, LexSt.extend, isWordChar_lowerC, isLetter_lowerC, isDig_lowerC, lowerC_eq_dot,
    lowerC_eq_eq, lowerC_eq_nl] <;> (repeat' split) <;> simp_all [lowerR, LexSt.lower, PTok.lower] <;>
    first | rfl | (exact lowerC_dig _ ‹_›)

/-- What `lexStart` may return for a character. -/
def StartOk (c : Char) (x : Except Err (List PTok × LexSt)) : Prop := ∀ r, x = .ok r →
    r.1.map PTok.lower = r.1 ∧ (r.2 = .word [c] ∨ (r.2.lower = r.2 ∧ ∀ w, r.2 = .word w ∨ r.2 = .colon w → w = []))

theorem startOk_ite (c : Char) (p : Prop) [Decidable p] (x y : Except Err (List PTok × LexSt)) (hx : StartOk c x)
    (hy : StartOk c y) : StartOk c (if p then x else y) := by
  by_cases h : p
  · rw [if_pos h]; exact hx
  · rw [if_neg h]; exact hy

theorem startOk_ok (c : Char) (ts : List PTok) (st : LexSt) (h1 : ts.map PTok.lower = ts) (h2 : st.lower = st)
    (h3 : ∀ w, st = .word w ∨ st = .colon w → w = []) : StartOk c (.ok (ts, st)) := by
  intro r hr
  simp only [Except.ok.injEq] at hr; subst hr
  exact ⟨h1, .inr ⟨h2, h3⟩⟩

theorem startOk_err (c : Char) (e : Err) : StartOk c (.error e) := by intro r hr; cases hr

theorem lexStart_shape (c : Char) {r} (h : lexStart c = .ok r) :
    r.1.map PTok.lower = r.1 ∧ (r.2 = .word [c] ∨ (r.2.lower = r.2 ∧ ∀ w, r.2 = .word w ∨ r.2 = .colon w → w = [])) := by
  refine (?_ : StartOk c (lexStart c)) r h
  unfold lexStart
  iterate 15 (refine startOk_ite c _ _ _ ?_ ?_; · (apply startOk_ok <;> first | rfl | simp [LexSt.lower]))
  iterate 2 (refine startOk_ite c _ _ _ ?_ ?_; · first | (intro r hr; simp only [Except.ok.injEq] at hr; subst hr; exact ⟨rfl, .inl rfl⟩) | (apply startOk_ok <;> first | rfl | simp [LexSt.lower]))
  exact startOk_err c _

theorem lexStart_lower (c : Char) : lexStart (lowerC c) = (lexStart c).map lowerR := by
  by_cases h : lowerC c = c
  · rw [h]
    cases hr : lexStart c with
    | error e => rfl
    | ok r =>
      obtain ⟨h1, h2⟩ := lexStart_shape c hr
      obtain ⟨ts, st⟩ := r
      simp only [Except.map, lowerR, h1]
      rcases h2 with h2 | h2
      · simp only at h2; subst h2; simp [LexSt.lower, h]
      · rw [h2.1]
  · have : ∀ c ∈ uppers, lexStart (lowerC c) = .ok ([], .word [lowerC c]) ∧ lexStart c = .ok ([], .word [c]) := by decide
    rw [(this c (mem_uppers c h)).1, (this c (mem_uppers c h)).2]
    rfl

theorem lexStepLC_lower (st : LexSt) (c : Char) : lexStepLC st.lower (lowerC c) = (lexStepLC st c).map lowerR := by
  unfold lexStepLC
  rw [extend_lower, flushLC_lower, lexStart_lower]
  cases st.extend c with
  | some r => rfl
  | none =>
    cases st.flushLC with
    | error e => rfl
    | ok ts =>
      cases lexStart c with
      | error e => rfl
      | ok r => simp [Except.map, lowerR]

theorem lexGoLC_lower (st : LexSt) (t : Text) :
    lexGoLC st.lower (t.map lowerC) = (lexGoLC st t).map (List.map PTok.lower) := by
  induction t generalizing st with
  | nil => exact flushLC_lower st
  | cons c cs ih =>
    simp only [List.map_cons, lexGoLC, lexStepLC_lower]
    cases lexStepLC st c with
    | error e => rfl
    | ok r =>
      simp only [Except.map, lowerR]
      rw [ih]
      cases lexGoLC r.2 cs with
      | error e => rfl
      | ok us => simp [Except.map]

/-! On a text in lower case the option makes no difference. -/

def LexSt.isLower : LexSt → Prop
  | .word w => w.map lowerC = w
  | .colon w => w.map lowerC = w
  | _ => True

theorem flushLC_eq (st : LexSt) (h : st.isLower) : st.flushLC = st.flush := by
  cases st <;> simp only [LexSt.flushLC, LexSt.flush]
  · simp only [LexSt.isLower] at h
    rw [lowerS_ofList, h]; simp only [wordTok]
    cases reserved _ <;> rfl
  · simp only [LexSt.isLower] at h
    rw [lowerS_ofList, h]
    cases colonTok _ <;> rfl

theorem extend_isLower (st : LexSt) (c : Char) (hc : lowerC c = c) (h : st.isLower) {r} (hr : st.extend c = some r) :
    r.2.isLower := by
  cases st <;> simp only [LexSt.extend] at hr <;> (repeat' split at hr) <;> cases hr <;> simp_all [LexSt.isLower]

theorem lexStart_isLower (c : Char) (hc : lowerC c = c) {r} (hr : lexStart c = .ok r) : r.2.isLower := by
  obtain ⟨-, h2⟩ := lexStart_shape c hr
  rcases h2 with h2 | ⟨-, h2⟩
  · rw [h2]; simp [LexSt.isLower, hc]
  · cases h : r.2 <;> simp only [LexSt.isLower]
    · rw [h2 _ (.inl h)]; rfl
    · rw [h2 _ (.inr h)]; rfl

theorem lexGoLC_eq (st : LexSt) (t : Text) (ht : t.map lowerC = t) (h : st.isLower) : lexGoLC st t = lexGo st t := by
  induction t generalizing st with
  | nil => exact flushLC_eq st h
  | cons c cs ih =>
    simp only [List.map_cons, List.cons.injEq] at ht
    have e : lexStepLC st c = lexStep st c := by
      unfold lexStepLC lexStep; rw [flushLC_eq st h]
      cases st.extend c with
      | some r => rfl
      | none => cases st.flush with
        | error e => rfl
        | ok ts => cases lexStart c <;> rfl
    simp only [lexGoLC, lexGo, e]
    cases hs : lexStep st c with
    | error e => rfl
    | ok r =>
      have : r.2.isLower := by
        unfold lexStep at hs
        split at hs
        · rename_i r' hr; cases hs; exact extend_isLower st c ht.1 h hr
        · split at hs
          · cases hs
          · split at hs
            · cases hs
            · rename_i us st' hr; cases hs; exact (lexStart_isLower c ht.1 hr :)
      dsimp only
      rw [ih r.2 ht.2 this]
      cases lexGo r.2 cs <;> rfl

/-! ### Trees -/

mutual
/-- A tree with the letters of its tokens in lower case. -/
def SX.lower : SX → SX
  | .tok t => .tok t.lower
  | .list xs => .list (lowerL xs)
def lowerL : List SX → List SX
  | [] => []
  | x :: xs => x.lower :: lowerL xs
end

theorem lowerL_append (xs ys : List SX) : lowerL (xs ++ ys) = lowerL xs ++ lowerL ys := by
  induction xs with
  | nil => rfl
  | cons x xs ih => simp [lowerL, ih]

theorem sxGo_lower (stack : List (List SX)) (cur : List SX) (ts : List PTok) :
    sxGo (stack.map lowerL) (lowerL cur) (ts.map PTok.lower) = (sxGo stack cur ts).map lowerL := by
  induction ts generalizing stack cur with
  | nil => cases stack <;> rfl
  | cons t ts ih =>
    cases t <;> simp only [List.map_cons, PTok.lower, sxGo]
    case lpar => exact ih (cur :: stack) []
    case rpar =>
      cases stack with
      | nil => rfl
      | cons up rest =>
        have := ih rest (up ++ [.list cur])
        simpa [lowerL_append, lowerL, SX.lower] using this
    all_goals (rw [← ih]; simp [lowerL_append, lowerL, SX.lower, PTok.lower])

theorem sxTree_lower (ts : Except Err (List PTok)) :
    sxTree (ts.map (List.map PTok.lower)) = (sxTree ts).map SX.lower := by
  cases ts with
  | error e => rfl
  | ok ts =>
    have := sxGo_lower [] [] ts
    simp only [List.map_nil, lowerL] at this
    simp only [Except.map, sxTree, this]
    cases sxGo [] [] ts with
    | error e => rfl
    | ok xs =>
      match xs with
      | [] => rfl
      | [x] => rfl
      | x :: y :: l => rfl

end Tarski

import Verif.Props.TaskPlan
import Mathlib.Tactic.SplitIfs
/-! Lemmas for C121: what the lexer and the reader of PDDL return. -/
namespace Tarski

/-! ### Tokens -/

/-- The text of a NAME token. -/
def NameTok (s : String) : Prop := ∃ c cs, s.toList = c :: cs ∧ isLetter c = true ∧ ∀ x ∈ cs, isWordChar x = true

/-- What the lexer puts into tokens with a text. -/
def TokOK : PTok → Prop
  | .name s => NameTok s ∧ reserved s = none
  | .var s => ∃ n, s = "?" ++ n ∧ NameTok n
  | .ext s => ∃ n, s = "@" ++ n ∧ NameTok n
  | .num t => ∃ c cs, t = c :: cs ∧ (isDig c = true ∨ c = '-')
  | _ => True

mutual
/-- All tokens of the tree. -/
def SXOK : SX → Prop
  | .tok t => TokOK t
  | .list xs => SXOKs xs
def SXOKs : List SX → Prop
  | [] => True
  | x :: xs => SXOK x ∧ SXOKs xs
end

theorem sxoks_iff : ∀ xs, SXOKs xs ↔ ∀ x ∈ xs, SXOK x
  | [] => by simp [SXOKs]
  | x :: xs => by simp [SXOKs, sxoks_iff xs]

theorem letter_cases {c : Char} (h : isLetter c = true) :
    c ∈ "abcdefghijklmnopqrstuvwxyzABCDEFGHIJKLMNOPQRSTUVWXYZ".toList := by
  have h1 : (97 ≤ c.toNat ∧ c.toNat ≤ 122) ∨ (65 ≤ c.toNat ∧ c.toNat ≤ 90) := by
    simp only [isLetter, Bool.or_eq_true, Bool.and_eq_true, decide_eq_true_eq, Char.le_def, UInt32.le_iff_toNat_le] at h
    exact h
  have h2 : c = Char.ofNat c.toNat := (Char.ofNat_toNat c).symm
  obtain ⟨n, hn⟩ : ∃ n, n = c.toNat := ⟨_, rfl⟩
  rw [← hn] at h1 h2
  rw [h2]
  rcases h1 with ⟨h3, h4⟩ | ⟨h3, h4⟩ <;> interval_cases n <;> decide

theorem isDig_cases {c : Char} (h : isDig c = true) : c ∈ "0123456789".toList := by
  have h1 : 48 ≤ c.toNat ∧ c.toNat ≤ 57 := by
    simp only [isDig, Bool.and_eq_true, decide_eq_true_eq, Char.le_def, UInt32.le_iff_toNat_le] at h
    exact h
  have h2 : c = Char.ofNat c.toNat := (Char.ofNat_toNat c).symm
  obtain ⟨n, hn⟩ : ∃ n, n = c.toNat := ⟨_, rfl⟩
  rw [← hn] at h1 h2
  rw [h2]
  obtain ⟨h3, h4⟩ := h1
  interval_cases n <;> decide

theorem letter_lower {c : Char} (h : isLetter c = true) : (lowerC c).isLower = true := by
  have : ∀ c ∈ "abcdefghijklmnopqrstuvwxyzABCDEFGHIJKLMNOPQRSTUVWXYZ".toList, (lowerC c).isLower = true := by decide
  exact this c (letter_cases h)

theorem wordChar_lower {c : Char} (h : isWordChar c = true) :
    (lowerC c).isLower = true ∨ (lowerC c).isDigit = true ∨ lowerC c = '-' ∨ lowerC c = '_' := by
  simp only [isWordChar, Bool.or_eq_true, beq_iff_eq] at h
  rcases h with ((h | h) | rfl) | rfl
  · exact .inl (letter_lower h)
  · have : ∀ c ∈ "0123456789".toList, (lowerC c).isDigit = true := by decide
    exact .inr (.inl (this c (isDig_cases h)))
  · exact .inr (.inr (.inr (by decide)))
  · exact .inr (.inr (.inl (by decide)))

theorem NameTok.lower {s : String} (h : NameTok s) : LowerName (lowerS s) := by
  obtain ⟨c, cs, h1, h2, h3⟩ := h
  refine ⟨lowerC c, cs.map lowerC, by simp [lowerS, h1], letter_lower h2, fun x hx => ?_⟩
  obtain ⟨y, hy, rfl⟩ := List.mem_map.1 hx
  exact wordChar_lower (h3 y hy)

theorem lowerS_var (n : String) : lowerS ("?" ++ n) = "?" ++ lowerS n := by
  apply String.toList_injective
  simp [lowerS, String.toList_append, lowerC]

theorem lowerS_ext (n : String) : lowerS ("@" ++ n) = "@" ++ lowerS n := by
  apply String.toList_injective
  simp [lowerS, String.toList_append, lowerC]

/-- What has been read of a token. -/
def LexStOK : LexSt → Prop
  | .word w => ∃ c cs, w = c :: cs ∧ isLetter c = true ∧ ∀ x ∈ cs, isWordChar x = true
  | .var w => ∃ c cs, w = '?' :: c :: cs ∧ isLetter c = true ∧ ∀ x ∈ cs, isWordChar x = true
  | .ext w => ∃ c cs, w = '@' :: c :: cs ∧ isLetter c = true ∧ ∀ x ∈ cs, isWordChar x = true
  | .num w => ∃ c cs, w = c :: cs ∧ (isDig c = true ∨ c = '-')
  | .numdot w => ∃ c cs, w = c :: cs ∧ (isDig c = true ∨ c = '-')
  | .frac w => ∃ c cs, w = c :: cs ∧ (isDig c = true ∨ c = '-')
  | _ => True

theorem stOK_ext {st : LexSt} {c : Char} {r : List PTok × LexSt} (h : LexStOK st) (he : st.extend c = some r) :
    (∀ t ∈ r.1, TokOK t) ∧ LexStOK r.2 := by
  have grow : ∀ {cs : Text}, (∀ x ∈ cs, isWordChar x = true) → isWordChar c = true → ∀ x ∈ cs ++ [c], isWordChar x = true := by
    intro cs h1 h2 x hx
    rcases List.mem_append.1 hx with hx | hx
    · exact h1 x hx
    · rw [List.mem_singleton.1 hx]; exact h2
  cases st <;> simp only [LexSt.extend] at he
  case idle => cases he
  case word w =>
    obtain ⟨d, cs, rfl, h1, h2⟩ := h
    split at he
    · cases he; exact ⟨by simp, d, cs ++ [c], rfl, h1, grow h2 ‹_›⟩
    · cases he
  case qmark =>
    split at he
    · cases he; exact ⟨by simp, c, [], rfl, ‹_›, by simp⟩
    · cases he
  case var w =>
    obtain ⟨d, cs, rfl, h1, h2⟩ := h
    split at he
    · cases he; exact ⟨by simp, d, cs ++ [c], rfl, h1, grow h2 ‹_›⟩
    · cases he
  case «at» =>
    split at he
    · cases he; exact ⟨by simp, c, [], rfl, ‹_›, by simp⟩
    · cases he
  case ext w =>
    obtain ⟨d, cs, rfl, h1, h2⟩ := h
    split at he
    · cases he; exact ⟨by simp, d, cs ++ [c], rfl, h1, grow h2 ‹_›⟩
    · cases he
  case num w =>
    obtain ⟨d, cs, rfl, h1⟩ := h
    split at he
    · cases he; exact ⟨by simp, d, cs ++ [c], rfl, h1⟩
    · split at he <;> cases he
      exact ⟨by simp, d, cs, rfl, h1⟩
  case numdot w =>
    obtain ⟨d, cs, rfl, h1⟩ := h
    split at he
    · cases he; exact ⟨by simp, d, cs ++ ['.', c], rfl, h1⟩
    · split at he <;> cases he
      refine ⟨?_, trivial⟩
      simp only [List.mem_cons, List.not_mem_nil, or_false, forall_eq_or_imp, forall_eq]
      exact ⟨⟨d, cs, rfl, h1⟩, trivial⟩
  case frac w =>
    obtain ⟨d, cs, rfl, h1⟩ := h
    split at he <;> cases he
    exact ⟨by simp, d, cs ++ [c], rfl, h1⟩
  case minus =>
    split at he <;> cases he
    exact ⟨by simp, '-', [c], rfl, .inr rfl⟩
  all_goals (repeat' split at he) <;> cases he <;> simp [LexStOK, TokOK]

theorem wordTok_ok {w : Text} (h : LexStOK (.word w)) : TokOK (wordTok (String.ofList w)) := by
  unfold wordTok
  split
  · trivial
  · obtain ⟨c, cs, h1, h2, h3⟩ := h
    exact ⟨⟨c, cs, by rw [String.toList_ofList, h1], h2, h3⟩, ‹_›⟩

theorem var_ok {w : Text} (h : LexStOK (.var w)) : TokOK (.var (String.ofList w)) := by
  obtain ⟨c, cs, rfl, h2, h3⟩ := h
  exact ⟨String.ofList (c :: cs), String.toList_injective (by simp [String.toList_append]), c, cs, by rw [String.toList_ofList], h2, h3⟩

theorem ext_ok {w : Text} (h : LexStOK (.ext w)) : TokOK (.ext (String.ofList w)) := by
  obtain ⟨c, cs, rfl, h2, h3⟩ := h
  exact ⟨String.ofList (c :: cs), String.toList_injective (by simp [String.toList_append]), c, cs, by rw [String.toList_ofList], h2, h3⟩

theorem colonTok_ok {w : String} {t : PTok} (h : colonTok w = .ok t) : TokOK t := by
  unfold colonTok at h
  split at h
  · cases h; trivial
  · split at h <;> cases h; trivial

theorem flush_ok {st : LexSt} (h : LexStOK st) {ts : List PTok} (hf : st.flush = .ok ts) : ∀ t ∈ ts, TokOK t := by
  cases st <;> simp only [LexSt.flush] at hf
  case word w => cases hf; simpa using wordTok_ok h
  case var w => cases hf; simpa using var_ok h
  case ext w => cases hf; simpa using ext_ok h
  case num w =>
    cases hf
    intro t ht
    rw [List.mem_singleton.1 ht]
    exact h
  case frac w =>
    cases hf
    intro t ht
    rw [List.mem_singleton.1 ht]
    exact h
  case colon w =>
    split at hf <;> cases hf
    simpa using colonTok_ok ‹_›
  all_goals cases hf <;> simp [TokOK]

/-- A word that is reserved is reserved in lower case. -/
theorem reserved_lower {w : String} (h : reserved (lowerS w) = none) : reserved w = none := by
  unfold reserved at h ⊢
  rw [lowerS_idem] at h
  split at h
  · cases h
  · have key : ∀ (l : List (String × Kw)), (∀ x ∈ l, lowerS x.1 = x.1) → l.lookup (lowerS w) = none → l.lookup w = none := by
      intro l
      induction l with
      | nil => intro _ _; rfl
      | cons x l ih =>
        intro h1 h2
        obtain ⟨k, v⟩ := x
        simp only [List.lookup_cons] at h2 ⊢
        split at h2
        · cases h2
        · rename_i hb
          have hb : ¬ w = k := by
            rintro rfl
            have := h1 (w, v) List.mem_cons_self
            simp only at this
            rw [this] at hb
            simp at hb
          rw [beq_eq_false_iff_ne.2 hb]
          exact ih (fun x hx => h1 x (List.mem_cons_of_mem _ hx)) h2
    exact key kwExact (by decide) h

theorem flushLC_ok {st : LexSt} (h : LexStOK st) {ts : List PTok} (hf : st.flushLC = .ok ts) : ∀ t ∈ ts, TokOK t := by
  cases st
  case word w =>
    simp only [LexSt.flushLC] at hf
    split at hf
    · cases hf; simp [TokOK]
    · rename_i hr
      have hr := reserved_lower hr
      cases hf
      obtain ⟨c, cs, h1, h2, h3⟩ := h
      intro t ht
      rw [List.mem_singleton.1 ht]
      exact ⟨⟨c, cs, by rw [String.toList_ofList, h1], h2, h3⟩, hr⟩
  case colon w =>
    simp only [LexSt.flushLC] at hf
    split at hf <;> cases hf
    simpa using colonTok_ok ‹_›
  all_goals exact flush_ok h hf

theorem iteOk {P : Prop} [Decidable P] {α : Type} {a b : Except Err α} {r : α} {Q : α → Prop} (h : (if P then a else b) = .ok r)
    (ha : P → a = .ok r → Q r) (hb : b = .ok r → Q r) : Q r := by
  split at h
  · exact ha ‹_› h
  · exact hb h

theorem ok_inj {α : Type} {a b : α} {Q : α → Prop} (h : (Except.ok a : Except Err α) = .ok b) (hq : Q a) : Q b := by
  cases h; exact hq

theorem lexStart_ok {c : Char} {r : List PTok × LexSt} (h : lexStart c = .ok r) : (∀ t ∈ r.1, TokOK t) ∧ LexStOK r.2 := by
  unfold lexStart at h
  let Q : List PTok × LexSt → Prop := fun r => (∀ t ∈ r.1, TokOK t) ∧ LexStOK r.2
  show Q r
  iterate 15 refine iteOk (Q := Q) h (fun _ h => ok_inj h (by simp [Q, TokOK, LexStOK])) (fun h => ?_)
  refine iteOk (Q := Q) h (fun hl h => ok_inj h ⟨by simp, c, [], rfl, hl, by simp⟩) (fun h => ?_)
  refine iteOk (Q := Q) h (fun hd h => ok_inj h ⟨by simp, c, [], rfl, .inl hd⟩) (fun h => ?_)
  cases h

theorem lexStep_ok {st : LexSt} {c : Char} {r : List PTok × LexSt} (h : LexStOK st) (hs : lexStep st c = .ok r) :
    (∀ t ∈ r.1, TokOK t) ∧ LexStOK r.2 := by
  unfold lexStep at hs
  split at hs
  · cases hs; exact stOK_ext h ‹_›
  · split at hs
    · cases hs
    · split at hs
      · cases hs
      · cases hs
        rename_i h1 _ _ _ h2
        have a := flush_ok h h1
        have b := lexStart_ok h2
        refine ⟨fun t ht => ?_, b.2⟩
        rcases List.mem_append.1 ht with ht | ht
        · exact a t ht
        · exact b.1 t ht

theorem lexStepLC_ok {st : LexSt} {c : Char} {r : List PTok × LexSt} (h : LexStOK st) (hs : lexStepLC st c = .ok r) :
    (∀ t ∈ r.1, TokOK t) ∧ LexStOK r.2 := by
  unfold lexStepLC at hs
  split at hs
  · cases hs; exact stOK_ext h ‹_›
  · split at hs
    · cases hs
    · split at hs
      · cases hs
      · cases hs
        rename_i h1 _ _ _ h2
        have a := flushLC_ok h h1
        have b := lexStart_ok h2
        refine ⟨fun t ht => ?_, b.2⟩
        rcases List.mem_append.1 ht with ht | ht
        · exact a t ht
        · exact b.1 t ht

theorem lexGo_ok : ∀ {cs : Text} {st : LexSt} {ts : List PTok}, LexStOK st → lexGo st cs = .ok ts → ∀ t ∈ ts, TokOK t
  | [], st, ts, h, hg => flush_ok h (by simpa only [lexGo] using hg)
  | c :: cs, st, ts, h, hg => by
    simp only [lexGo] at hg
    split at hg
    · cases hg
    · split at hg
      · cases hg
      · cases hg
        rename_i h1 _ _ h2
        have a := lexStep_ok h h1
        intro t ht
        rcases List.mem_append.1 ht with ht | ht
        · exact a.1 t ht
        · exact lexGo_ok a.2 h2 t ht

theorem lexGoLC_ok : ∀ {cs : Text} {st : LexSt} {ts : List PTok}, LexStOK st → lexGoLC st cs = .ok ts → ∀ t ∈ ts, TokOK t
  | [], st, ts, h, hg => flushLC_ok h (by simpa only [lexGoLC] using hg)
  | c :: cs, st, ts, h, hg => by
    simp only [lexGoLC] at hg
    split at hg
    · cases hg
    · split at hg
      · cases hg
      · cases hg
        rename_i h1 _ _ h2
        have a := lexStepLC_ok h h1
        intro t ht
        rcases List.mem_append.1 ht with ht | ht
        · exact a.1 t ht
        · exact lexGoLC_ok a.2 h2 t ht

theorem lexFile_ok {ci : Bool} {t : Text} {ts : List PTok} (h : lexFile ci t = .ok ts) : ∀ t ∈ ts, TokOK t := by
  unfold lexFile at h
  split at h
  · exact lexGoLC_ok (st := .idle) trivial h
  · exact lexGo_ok (st := .idle) trivial h

theorem sxGo_ok : ∀ {ts : List PTok} {stack : List (List SX)} {cur out : List SX}, (∀ t ∈ ts, TokOK t) → (∀ l ∈ stack, SXOKs l) →
    SXOKs cur → sxGo stack cur ts = .ok out → SXOKs out
  | [], stack, cur, out, _, _, hc, h => by
    cases stack <;> simp only [sxGo] at h <;> cases h
    exact hc
  | t :: ts, stack, cur, out, ht, hs, hc, h => by
    have ht' : ∀ t ∈ ts, TokOK t := fun t h => ht t (by simp [h])
    have h0 := ht t (by simp)
    have key : ∀ x, SXOK x → SXOKs (cur ++ [x]) := fun x hx => by
      rw [sxoks_iff] at hc ⊢
      intro y hy
      rcases List.mem_append.1 hy with hy | hy
      · exact hc y hy
      · rw [List.mem_singleton.1 hy]; exact hx
    cases t
    case lpar =>
      simp only [sxGo] at h
      refine sxGo_ok ht' ?_ (by simp [SXOKs]) h
      intro l hl
      rcases List.mem_cons.1 hl with rfl | hl
      · exact hc
      · exact hs l hl
    case rpar =>
      cases stack with
      | nil => simp only [sxGo] at h; cases h
      | cons up rest =>
        simp only [sxGo] at h
        refine sxGo_ok ht' (fun l hl => hs l (by simp [hl])) ?_ h
        have hu := hs up (by simp)
        rw [sxoks_iff] at hu ⊢
        intro y hy
        rcases List.mem_append.1 hy with hy | hy
        · exact hu y hy
        · rw [List.mem_singleton.1 hy]; exact hc
    all_goals
      simp only [sxGo] at h
      exact sxGo_ok ht' hs (key (.tok _) (by simpa only [SXOK] using h0)) h

theorem sxTree_ok {ci : Bool} {t : Text} {x : SX} (h : sxTree (lexFile ci t) = .ok x) : SXOK x := by
  unfold sxTree at h
  split at h
  · cases h
  · split at h <;> cases h
    rename_i h1 _ h2
    have := sxGo_ok (lexFile_ok h1) (by simp) (by simp [SXOKs]) h2
    exact this.1

end Tarski

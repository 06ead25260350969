import Mathlib.Tactic.Common
import Mathlib.Order.Basic
import Verif.AspText
import Verif.Props.LPGround
/-! C110: the text of logic programs. -/
namespace Tarski

/-! ### Specification -/

/-- A word of a logic program: not empty, and without the characters that structure the text. -/
def AspWord (w : AStr) : Prop := w ≠ [] ∧ ∀ c ∈ w, c ∉ ['(', ')', ',', '.', ' ', '\n']

/-- An atom as the constructor makes it, of words. -/
def LPText.Wf (a : LPText) : Prop := AspWord a.symbol ∧ (∀ x ∈ a.args, AspWord x) ∧ (a.isInfix = true → a.args.length = 2)

def LPHead.Wf : LPHead → Prop
  | .atom a => a.Wf
  | .cost a v => a.Wf ∧ a.isInfix = false ∧ AspWord v

def LPRuleT.Wf (r : LPRuleT) : Prop := r.head.Wf ∧ ∀ b, r.body = some b → ∀ a ∈ b, a.Wf

/-! ### Unique readability -/

theorem aspWord_split {w w' : AStr} {d d' : Char} {t t' : AStr} (hw : ∀ c ∈ w, c ∉ ['(', ')', ',', '.', ' ', '\n'])
    (hw' : ∀ c ∈ w', c ∉ ['(', ')', ',', '.', ' ', '\n']) (hd : d ∈ ['(', ')', ',', '.', ' ', '\n']) (hd' : d' ∈ ['(', ')', ',', '.', ' ', '\n'])
    (h : w ++ d :: t = w' ++ d' :: t') : w = w' ∧ d = d' ∧ t = t' := by
  induction w generalizing w' with
  | nil =>
    cases w' with
    | nil => simp at h; exact ⟨rfl, h.1, h.2⟩
    | cons c cs =>
      simp at h
      exact absurd (h.1 ▸ hd) (hw' c (by simp))
  | cons c cs ih =>
    cases w' with
    | nil =>
      simp at h
      exact absurd (h.1 ▸ hd') (hw c (by simp))
    | cons c' cs' =>
      simp at h
      obtain ⟨rfl, h⟩ := h
      obtain ⟨rfl, e2, e3⟩ := ih (fun x hx => hw x (by simp [hx])) (fun x hx => hw' x (by simp [hx])) h
      exact ⟨rfl, e2, e3⟩

theorem aspJoin_split {as as' : List AStr} {t t' : AStr} (h : ∀ x ∈ as, AspWord x) (h' : ∀ x ∈ as', AspWord x)
    (e : aspJoin [',', ' '] as ++ ')' :: t = aspJoin [',', ' '] as' ++ ')' :: t') : as = as' ∧ t = t' := by
  have nonempty : ∀ (x : AStr) (xs : List AStr) (t t' : AStr), AspWord x → (∀ y ∈ xs, AspWord y) → ')' :: t ≠ aspJoin [',', ' '] (x :: xs) ++ ')' :: t' := by
    intro x xs t t' hx hxs e
    have key : ∃ u, aspJoin [',', ' '] (x :: xs) ++ ')' :: t' = x ++ u := by
      cases xs with
      | nil => exact ⟨_, rfl⟩
      | cons y ys => exact ⟨[',', ' '] ++ aspJoin [',', ' '] (y :: ys) ++ ')' :: t', by simp [aspJoin]⟩
    obtain ⟨u, hu⟩ := key
    rw [hu] at e
    cases x with
    | nil => exact hx.1 rfl
    | cons c cs =>
      rw [List.cons_append, List.cons.injEq] at e
      exact hx.2 c (by simp) (by rw [← e.1]; decide)
  induction as generalizing as' with
  | nil =>
    cases as' with
    | nil => simp [aspJoin] at e; exact ⟨rfl, e⟩
    | cons x xs => exact absurd e (nonempty x xs _ _ (h' x (by simp)) (fun y hy => h' y (by simp [hy])))
  | cons a as ih =>
    cases as' with
    | nil => exact absurd e.symm (nonempty a as _ _ (h a (by simp)) (fun y hy => h y (by simp [hy])))
    | cons a' as' =>
      have ha := h a (by simp)
      have ha' := h' a' (by simp)
      match as, as' with
      | [], [] =>
        obtain ⟨rfl, -, e3⟩ := aspWord_split ha.2 ha'.2 (by decide) (by decide) e
        exact ⟨rfl, e3⟩
      | [], y :: ys =>
        have e' : a ++ ')' :: t = a' ++ ',' :: (' ' :: (aspJoin [',', ' '] (y :: ys) ++ ')' :: t')) := by simpa [aspJoin] using e
        exact absurd (aspWord_split ha.2 ha'.2 (by decide) (by decide) e').2.1 (by decide)
      | y :: ys, [] =>
        have e' : a ++ ',' :: (' ' :: (aspJoin [',', ' '] (y :: ys) ++ ')' :: t)) = a' ++ ')' :: t' := by simpa [aspJoin] using e
        exact absurd (aspWord_split ha.2 ha'.2 (by decide) (by decide) e').2.1 (by decide)
      | y :: ys, z :: zs =>
        have e' : a ++ ',' :: (' ' :: (aspJoin [',', ' '] (y :: ys) ++ ')' :: t)) = a' ++ ',' :: (' ' :: (aspJoin [',', ' '] (z :: zs) ++ ')' :: t')) := by
          simpa [aspJoin] using e
        obtain ⟨rfl, -, e3⟩ := aspWord_split ha.2 ha'.2 (by decide) (by decide) e'
        obtain ⟨e4, e5⟩ := ih (fun x hx => h x (by simp [hx])) (as' := z :: zs) (fun x hx => h' x (by simp [hx])) (List.cons.inj e3).2
        exact ⟨by rw [e4], e5⟩

/-- What can follow an atom. -/
def AspEnd (t : AStr) : Prop := ∃ d u, t = d :: u ∧ d ∈ [',', '.', ' ']

theorem AspEnd.mem {d : Char} (h : d ∈ [',', '.', ' ']) : d ∈ ['(', ')', ',', '.', ' ', '\n'] := by
  simp at h ⊢; tauto

theorem aspText_prefix {a : LPText} (h : a.isInfix = false) (t : AStr) :
    a.text ++ t = a.symbol ++ '(' :: (aspJoin [',', ' '] a.args ++ ')' :: t) := by
  simp [LPText.text, h]

theorem aspText_infix {a : LPText} (hw : a.Wf) (h : a.isInfix = true) (t : AStr) : ∃ x y, a.args = [x, y] ∧
    a.text ++ t = x ++ ' ' :: (a.symbol ++ ' ' :: (y ++ t)) := by
  obtain ⟨x, y, e⟩ := List.length_eq_two.1 (hw.2.2 h)
  exact ⟨x, y, e, by simp [LPText.text, h, e]⟩

theorem aspAtom_split {a a' : LPText} (h : a.Wf) (h' : a'.Wf) {t t' : AStr} (ht : AspEnd t) (ht' : AspEnd t') (e : a.text ++ t = a'.text ++ t') :
    a = a' ∧ t = t' := by
  obtain ⟨s, as, b⟩ := a
  obtain ⟨s', as', b'⟩ := a'
  obtain ⟨d, u, rfl, hd⟩ := ht
  obtain ⟨d', u', rfl, hd'⟩ := ht'
  cases b with
  | false =>
    rw [aspText_prefix rfl] at e
    cases b' with
    | false =>
      rw [aspText_prefix rfl] at e
      obtain ⟨e1, -, e2⟩ := aspWord_split h.1.2 h'.1.2 (by decide) (by decide) e
      obtain ⟨e3, e4⟩ := aspJoin_split h.2.1 h'.2.1 e2
      exact ⟨by simp at e1 e3; simp [e1, e3], e4⟩
    | true =>
      obtain ⟨x, y, ea, et⟩ := aspText_infix h' rfl (d' :: u')
      rw [et] at e
      have hx := h'.2.1 x (by rw [ea]; simp)
      exact absurd (aspWord_split h.1.2 hx.2 (by decide) (by decide) e).2.1 (by decide)
  | true =>
    obtain ⟨x, y, ea, et⟩ := aspText_infix h rfl (d :: u)
    rw [et] at e
    have hx := h.2.1 x (by rw [ea]; simp)
    have hy := h.2.1 y (by rw [ea]; simp)
    cases b' with
    | false =>
      rw [aspText_prefix rfl] at e
      exact absurd (aspWord_split hx.2 h'.1.2 (by decide) (by decide) e).2.1 (by decide)
    | true =>
      obtain ⟨x', y', ea', et'⟩ := aspText_infix h' rfl (d' :: u')
      rw [et'] at e
      have hx' := h'.2.1 x' (by rw [ea']; simp)
      have hy' := h'.2.1 y' (by rw [ea']; simp)
      obtain ⟨e1, -, e2⟩ := aspWord_split hx.2 hx'.2 (by decide) (by decide) e
      obtain ⟨e3, -, e4⟩ := aspWord_split h.1.2 h'.1.2 (by decide) (by decide) e2
      obtain ⟨e5, e6, e7⟩ := aspWord_split hy.2 hy'.2 (AspEnd.mem hd) (AspEnd.mem hd') e4
      simp only at ea ea'
      simp only at e3
      exact ⟨by rw [ea, ea', e1, e3, e5], by rw [e6, e7]⟩

theorem cost_word : AspWord ['c', 'o', 's', 't'] := ⟨by simp, by simp⟩

theorem head_split {x x' : LPHead} (h : x.Wf) (h' : x'.Wf) {t t' : AStr} (ht : AspEnd t) (ht' : AspEnd t') (e : x.text ++ t = x'.text ++ t') :
    x = x' ∧ t = t' := by
  have cost_text : ∀ (a : LPText) (v t : AStr), a.isInfix = false → (LPHead.cost a v).text ++ t =
      ['c', 'o', 's', 't'] ++ '(' :: (a.symbol ++ '(' :: (aspJoin [',', ' '] a.args ++ ')' :: (',' :: ' ' :: (v ++ ')' :: t)))) := by
    intro a v t ha
    simp [LPHead.text, LPText.text, ha]
  have mixed : ∀ (a b : LPText) (v t t' : AStr), a.Wf → (LPHead.cost b v).Wf → AspEnd t' → a.text ++ t ≠ (LPHead.cost b v).text ++ t' := by
    intro a b v t t' ha hb _ e
    rw [cost_text b v t' hb.2.1] at e
    by_cases hi : a.isInfix = true
    · obtain ⟨x, y, ea, et⟩ := aspText_infix ha hi t
      rw [et] at e
      have hx := ha.2.1 x (by rw [ea]; simp)
      exact absurd (aspWord_split hx.2 cost_word.2 (by decide) (by decide) e).2.1 (by decide)
    · rw [aspText_prefix (by simpa using hi)] at e
      obtain ⟨-, -, e2⟩ := aspWord_split ha.1.2 cost_word.2 (by decide) (by decide) e
      match hA : a.args with
      | [] =>
        rw [hA] at e2
        have e2' : ([] : AStr) ++ ')' :: t = b.symbol ++ '(' :: (aspJoin [',', ' '] b.args ++ ')' :: (',' :: ' ' :: (v ++ ')' :: t'))) := e2
        exact absurd (aspWord_split (by simp) hb.1.1.2 (by decide) (by decide) e2').2.1 (by decide)
      | [y] =>
        rw [hA] at e2
        have hy := ha.2.1 y (by rw [hA]; simp)
        exact absurd (aspWord_split hy.2 hb.1.1.2 (by decide) (by decide) e2).2.1 (by decide)
      | y :: z :: zs =>
        rw [hA] at e2
        have hy := ha.2.1 y (by rw [hA]; simp)
        have e2' : y ++ ',' :: (' ' :: (aspJoin [',', ' '] (z :: zs) ++ ')' :: t)) =
            b.symbol ++ '(' :: (aspJoin [',', ' '] b.args ++ ')' :: (',' :: ' ' :: (v ++ ')' :: t'))) := by
          simpa [aspJoin] using e2
        exact absurd (aspWord_split hy.2 hb.1.1.2 (by decide) (by decide) e2').2.1 (by decide)
  match x, x' with
  | .atom a, .atom a' =>
    obtain ⟨rfl, e2⟩ := aspAtom_split h h' ht ht' e
    exact ⟨rfl, e2⟩
  | .atom a, .cost b v => exact absurd e (mixed a b v t t' h h' ht')
  | .cost b v, .atom a => exact absurd e.symm (mixed a b v t' t h' h ht)
  | .cost a v, .cost a' v' =>
    rw [cost_text a v t h.2.1, cost_text a' v' t' h'.2.1] at e
    obtain ⟨-, -, e1⟩ := aspWord_split cost_word.2 cost_word.2 (by decide) (by decide) e
    obtain ⟨s1, -, e2⟩ := aspWord_split h.1.1.2 h'.1.1.2 (by decide) (by decide) e1
    obtain ⟨s2, e3⟩ := aspJoin_split h.1.2.1 h'.1.2.1 e2
    obtain ⟨s3, -, e4⟩ := aspWord_split h.2.2.2 h'.2.2.2 (d := ')') (d' := ')') (by decide) (by decide) (by simpa using e3)
    refine ⟨?_, e4⟩
    have := h.2.1
    have := h'.2.1
    obtain ⟨s, as, b⟩ := a
    obtain ⟨s', as', b'⟩ := a'
    simp_all

theorem aspText_cons (a : LPText) (h : a.Wf) : ∃ c u, a.text = c :: u ∧ c ∉ ['(', ')', ',', '.', ' ', '\n'] := by
  cases hi : a.isInfix with
  | false =>
    have := aspText_prefix hi []
    rw [List.append_nil] at this
    obtain ⟨hne, hc⟩ := h.1
    cases hs : a.symbol with
    | nil => exact absurd hs hne
    | cons c cs => exact ⟨c, _, by rw [this, hs]; rfl, hc c (by rw [hs]; simp)⟩
  | true =>
    obtain ⟨x, y, ea, et⟩ := aspText_infix h hi []
    rw [List.append_nil] at et
    obtain ⟨hne, hc⟩ := h.2.1 x (by rw [ea]; simp)
    cases hs : x with
    | nil => exact absurd hs hne
    | cons c cs => exact ⟨c, _, by rw [et, hs]; rfl, hc c (by rw [hs]; simp)⟩

theorem aspBody_split {b b' : List LPText} (h : ∀ a ∈ b, a.Wf) (h' : ∀ a ∈ b', a.Wf) {t t' : AStr} (e : printBody b ++ '.' :: t = printBody b' ++ '.' :: t') :
    b = b' ∧ t = t' := by
  have nonempty : ∀ (a : LPText) (as : List LPText) (t t' : AStr), a.Wf → '.' :: t ≠ printBody (a :: as) ++ '.' :: t' := by
    intro a as t t' ha e
    have key : ∃ u, printBody (a :: as) ++ '.' :: t' = a.text ++ u := by
      cases as with
      | nil => exact ⟨_, rfl⟩
      | cons y ys => exact ⟨[',', ' '] ++ printBody (y :: ys) ++ '.' :: t', by simp [printBody, aspJoin]⟩
    obtain ⟨u, hu⟩ := key
    obtain ⟨c, v, hc, hn⟩ := aspText_cons a ha
    rw [hu, hc, List.cons_append, List.cons.injEq] at e
    exact hn (by rw [← e.1]; decide)
  induction b generalizing b' with
  | nil =>
    cases b' with
    | nil => simp [printBody, aspJoin] at e; exact ⟨rfl, e⟩
    | cons x xs => exact absurd e (nonempty x xs _ _ (h' x (by simp)))
  | cons a as ih =>
    cases b' with
    | nil => exact absurd e.symm (nonempty a as _ _ (h a (by simp)))
    | cons a' as' =>
      have ha := h a (by simp)
      have ha' := h' a' (by simp)
      have rest : ∀ (a : LPText) (as : List LPText) (t : AStr), ∃ v, printBody (a :: as) ++ '.' :: t = a.text ++ v ∧ AspEnd v ∧
          v = (match as with | [] => '.' :: t | y :: ys => ',' :: ' ' :: (printBody (y :: ys) ++ '.' :: t)) := by
        intro a as t
        cases as with
        | nil => exact ⟨_, rfl, ⟨_, _, rfl, by decide⟩, rfl⟩
        | cons y ys => exact ⟨',' :: ' ' :: (printBody (y :: ys) ++ '.' :: t), by simp [printBody, aspJoin], ⟨_, _, rfl, by decide⟩, rfl⟩
      obtain ⟨v, e1, hv, e2⟩ := rest a as t
      obtain ⟨v', e1', hv', e2'⟩ := rest a' as' t'
      rw [e1, e1'] at e
      obtain ⟨rfl, e3⟩ := aspAtom_split ha ha' hv hv' e
      rw [e2, e2'] at e3
      match as, as' with
      | [], [] => simp at e3; exact ⟨rfl, e3⟩
      | [], _ :: _ => simp at e3
      | _ :: _, [] => simp at e3
      | y :: ys, z :: zs =>
        simp only [List.cons.injEq, true_and] at e3
        obtain ⟨e4, e5⟩ := ih (fun x hx => h x (by simp [hx])) (b' := z :: zs) (fun x hx => h' x (by simp [hx])) e3
        exact ⟨by rw [e4], e5⟩

theorem aspRule_split {r r' : LPRuleT} (h : r.Wf) (h' : r'.Wf) {t t' : AStr} (e : printRule r ++ t = printRule r' ++ t') : r = r' ∧ t = t' := by
  have rest : ∀ (r : LPRuleT) (t : AStr), ∃ v, printRule r ++ t = r.head.text ++ v ∧ AspEnd v ∧
      v = (match r.body with | none => '.' :: t | some b => ' ' :: ':' :: '-' :: ' ' :: (printBody b ++ '.' :: t)) := by
    intro r t
    obtain ⟨hd, b⟩ := r
    cases b with
    | none => exact ⟨'.' :: t, by simp [printRule], ⟨_, _, rfl, by decide⟩, rfl⟩
    | some b => exact ⟨' ' :: ':' :: '-' :: ' ' :: (printBody b ++ '.' :: t), by simp [printRule], ⟨_, _, rfl, by decide⟩, rfl⟩
  obtain ⟨v, e1, hv, e2⟩ := rest r t
  obtain ⟨v', e1', hv', e2'⟩ := rest r' t'
  rw [e1, e1'] at e
  obtain ⟨e3, e4⟩ := head_split h.1 h'.1 hv hv' e
  rw [e2, e2'] at e4
  obtain ⟨hd, b⟩ := r
  obtain ⟨hd', b'⟩ := r'
  simp only at e3
  subst e3
  match b, b' with
  | none, none => simp at e4; exact ⟨rfl, e4⟩
  | none, some _ => simp at e4
  | some _, none => simp at e4
  | some b, some b' =>
    simp only [List.cons.injEq, true_and] at e4
    obtain ⟨e5, e6⟩ := aspBody_split (h.2 b rfl) (h'.2 b' rfl) e4
    exact ⟨by rw [e5], e6⟩

/-- C110: the text of a rule determines its head and body: nothing is lost or confused when rules are stored as text. -/
theorem C110_rule_readable (r r' : LPRuleT) (h : r.Wf) (h' : r'.Wf) (e : printRule r = printRule r') : r = r' :=
  (aspRule_split (t := []) (t' := []) h h' (congrArg (· ++ []) e)).1

theorem rules_split : ∀ {rs rs' : List LPRuleT}, (∀ r ∈ rs, r.Wf) → (∀ r ∈ rs', r.Wf) →
    rs.flatMap (fun r => printRule r ++ ['\n']) = rs'.flatMap (fun r => printRule r ++ ['\n']) → rs = rs'
  | [], [], _, _, _ => rfl
  | [], r :: rs, _, _, e => by simp at e
  | r :: rs, [], _, _, e => by simp at e
  | r :: rs, r' :: rs', h, h', e => by
    simp only [List.flatMap_cons, List.append_assoc] at e
    obtain ⟨rfl, e2⟩ := aspRule_split (h r (by simp)) (h' r' (by simp)) e
    have := rules_split (rs := rs) (rs' := rs') (fun x hx => h x (by simp [hx])) (fun x hx => h' x (by simp [hx])) (List.append_cancel_left e2)
    rw [this]

/-- C110: the file that is given to the solver determines the program: the sequence of its rules. -/
theorem C110_file_readable (rs rs' : List LPRuleT) (h : ∀ r ∈ rs, r.Wf) (h' : ∀ r ∈ rs', r.Wf) (e : theoryFile rs [] = theoryFile rs' []) :
    rs = rs' := rules_split h h' (by simpa [theoryFile] using e)

/-- C110: a program written into a file is the same text as the program that is kept in memory and written for the solver. -/
theorem C110_in_file (rs : List LPRuleT) : inFileProgram rs [] = theoryFile rs [] := by
  have key : ∀ (rs : List LPRuleT) (fd : AStr), inFileProgram rs fd = fd ++ rs.flatMap (fun r => printRule r ++ ['\n']) := by
    intro rs
    induction rs with
    | nil => simp [inFileProgram]
    | cons r rs ih => intro fd; simp [inFileProgram, ih]
  rw [key]; simp [theoryFile]

/-- C110: no rule of words contains a line feed, so that each line of the file is one rule or directive. -/
theorem C110_one_line (r : LPRuleT) (h : r.Wf) : '\n' ∉ printRule r := by
  have word : ∀ w, AspWord w → '\n' ∉ w := fun w hw hm => hw.2 _ hm (by decide)
  have join : ∀ l : List AStr, (∀ x ∈ l, '\n' ∉ x) → '\n' ∉ aspJoin [',', ' '] l := by
    intro l
    induction l with
    | nil => simp [aspJoin]
    | cons a l ih =>
      intro hl
      cases l with
      | nil => exact hl a (by simp)
      | cons b l =>
        have h1 := hl a (by simp)
        have h2 := ih (fun x hx => hl x (by simp [hx]))
        simp only [aspJoin, List.mem_append, not_or]
        exact ⟨⟨h1, by decide⟩, h2⟩
  have atom : ∀ a : LPText, a.Wf → '\n' ∉ a.text := by
    intro a ha
    cases hi : a.isInfix with
    | false =>
      have := join a.args (fun x hx => word x (ha.2.1 x hx))
      have hs := word _ ha.1
      simp [LPText.text, hi, this, hs]
    | true =>
      obtain ⟨x, y, ea⟩ := List.length_eq_two.1 (ha.2.2 hi)
      have h1 := word x (ha.2.1 x (by rw [ea]; simp))
      have h2 := word y (ha.2.1 y (by rw [ea]; simp))
      have hs := word _ ha.1
      simp [LPText.text, hi, ea, h1, h2, hs]
  have head : '\n' ∉ r.head.text := by
    cases hh : r.head with
    | atom a => exact atom a (by have := h.1; rw [hh] at this; exact this)
    | cost a v =>
      have hw := h.1
      rw [hh] at hw
      have h1 := atom a hw.1
      have h2 := word v hw.2.2
      simp [LPHead.text, h1, h2]
  cases hb : r.body with
  | none => simp [printRule, hb, head]
  | some b =>
    have := join (b.map LPText.text) (by
      intro x hx
      obtain ⟨a, ha, rfl⟩ := List.mem_map.1 hx
      exact atom a (h.2 b hb a ha))
    simp [printRule, hb, head, printBody, this]

/-- A rule for a drive action and its cost. -/
example : printRule ⟨.cost ⟨"action_move".toList, ["X".toList, "Y".toList], false⟩ "1".toList, some [⟨"type_object".toList, ["X".toList], false⟩, ⟨"!=".toList, ["X".toList, "Y".toList], true⟩]⟩
    = "cost(action_move(X, Y), 1) :- type_object(X), X != Y.".toList := by decide

/-- Names with structuring characters are not sanitized, and their rules are confused: here `p` of the one constant `a, b` and of two. -/
theorem C110_unclean_refuted : ¬ (∀ r r' : LPRuleT, printRule r = printRule r' → r = r') := by
  intro h
  have := h ⟨.atom ⟨['p'], [['a', ',', ' ', 'b']], false⟩, none⟩ ⟨.atom ⟨['p'], [['a'], ['b']], false⟩, none⟩ (by decide)
  exact absurd this (by decide)

/-! ### Reading the answer -/

/-- The full statement: `parse_model` reads the model from the file or from the text, whichever is given, and complains about its arguments
only if both or none are given. -/
def C110_parse_full : Prop := ∀ files filename content tr,
  parseModelArgs files filename content tr = (match filename, content with
    | some f, none => (match files f with | none => .error .value | some ls => parseModel tr ls)
    | none, some c => parseModel tr (splitLines c)
    | _, _ => .error .semantic)

/-- C110, `parse_model`, proved part: for file names and texts that are not empty. -/
theorem C110_parse_partial (files : AStr → Option (List AStr)) (filename content : Option AStr) (tr : Translator) (hf : filename ≠ some [])
    (hc : content ≠ some []) : parseModelArgs files filename content tr = (match filename, content with
    | some f, none => (match files f with | none => .error .value | some ls => parseModel tr ls)
    | none, some c => parseModel tr (splitLines c)
    | _, _ => .error .semantic) := by
  match filename, content with
  | none, none => simp [parseModelArgs]
  | some f, none =>
    have : f ≠ [] := fun e => hf (by rw [e])
    cases h : files f <;> simp [parseModelArgs, this, h]
  | none, some c =>
    have : c ≠ [] := fun e => hc (by rw [e])
    simp [parseModelArgs, this]
  | some f, some c =>
    have h1 : f ≠ [] := fun e => hf (by rw [e])
    have h2 : c ≠ [] := fun e => hc (by rw [e])
    simp [parseModelArgs, h1, h2]

/-- The empty text, which is the answer of a program without facts, is refused. -/
theorem C110_parse_refuted : ¬ C110_parse_full := by
  intro h
  have := h (fun _ => none) none (some []) ⟨[], []⟩
  exact absurd this (by decide)

theorem splitLines_line (l : AStr) (h : '\n' ∉ l) (s : AStr) : splitLines (l ++ '\n' :: s) = l :: splitLines s := by
  induction l with
  | nil => simp [splitLines]
  | cons c cs ih =>
    have hc : c ≠ '\n' := fun e => h (by simp [e])
    have hcs : '\n' ∉ cs := fun e => h (by simp [e])
    rw [List.cons_append, splitLines, if_neg hc, ih hcs]
    cases cs with
    | nil => simp
    | cons d ds =>
      have : d ≠ '\n' := fun e => hcs (by simp [e])
      simp [this]

/-- C110: reading the answer from its text is the same as reading it from a file with the same lines. -/
theorem C110_content_file (tr : Translator) (lines : List AStr) (hn : ∀ l ∈ lines, '\n' ∉ l) (hne : lines ≠ []) :
    parseModelArgs (fun _ => none) none (some (lines.flatMap (· ++ ['\n']))) tr = parseModel tr lines := by
  have key : ∀ ls : List AStr, (∀ l ∈ ls, '\n' ∉ l) → splitLines (ls.flatMap (· ++ ['\n'])) = ls := by
    intro ls
    induction ls with
    | nil => intro _; rfl
    | cons l ls ih =>
      intro h
      rw [List.flatMap_cons, List.append_assoc]
      rw [show ['\n'] ++ ls.flatMap (· ++ ['\n']) = '\n' :: ls.flatMap (· ++ ['\n']) from rfl, splitLines_line l (h l (by simp)),
        ih (fun x hx => h x (by simp [hx]))]
  have hne' : lines.flatMap (· ++ ['\n']) ≠ [] := by
    cases lines with
    | nil => exact absurd rfl hne
    | cons l ls => simp
  rw [C110_parse_partial _ _ _ _ (by simp) (by simpa using hne')]
  simp only
  rw [key lines hn]

/-- C110: an atom with a symbol and arguments that are words is accepted, and is printable, unless it is written infix with a number of arguments other
than two: that fails the assertion. -/
theorem C110_atom (symbol : AStr) (args : List AStr) (isInfix : Bool) (hs : AspWord symbol) (ha : ∀ x ∈ args, AspWord x) :
    (∀ a, mkLPAtom symbol args isInfix = .ok a ↔ a = ⟨symbol, args, isInfix⟩ ∧ a.Wf) ∧
    (∀ e, mkLPAtom symbol args isInfix = .error e ↔ e = .assertion ∧ isInfix = true ∧ args.length ≠ 2) := by
  unfold mkLPAtom
  cases isInfix with
  | false =>
    simp only [Bool.not_false, Bool.true_or, if_true, Except.ok.injEq]
    refine ⟨fun a => ⟨?_, fun h => h.1.symm⟩, fun e => by simp⟩
    intro h; subst h; exact ⟨rfl, hs, ha, by simp⟩
  | true =>
    by_cases h : args.length = 2
    · simp only [Bool.not_true, Bool.false_or, h, beq_self_eq_true, if_true, Except.ok.injEq]
      refine ⟨fun a => ⟨?_, fun h => h.1.symm⟩, fun e => by simp⟩
      intro e; subst e; exact ⟨rfl, hs, ha, fun _ => h⟩
    · have : (args.length == 2) = false := by simpa using h
      simp only [Bool.not_true, Bool.false_or, this, Bool.false_eq_true, if_false]
      refine ⟨fun a => ⟨by nofun, ?_⟩, fun e => by simp [eq_comm, h]⟩
      rintro ⟨rfl, _, _, h'⟩
      exact absurd (h' rfl) h

example : mkLPAtom "<".toList ["X".toList, "3".toList] true = .ok ⟨"<".toList, ["X".toList, "3".toList], true⟩ ∧
    mkLPAtom "<".toList ["X".toList] true = .error .assertion := by decide

example : splitLines "goal.\natom_p(a).\n".toList = ["goal.".toList, "atom_p(a).".toList] := by decide

end Tarski

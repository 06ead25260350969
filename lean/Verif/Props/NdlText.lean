import Verif.NdlText
import Verif.Props.ExprText
import Verif.Props.CspFile
/-! C127: the texts of temporal requests and effects. -/
namespace Tarski

/-! ### Specification (over the stocks of `Props/ExprText.lean`) -/

/-- The expression with all containers of subformulas made tuples. -/
def tuplesN : NdlExpr → NdlExpr
  | .lock ts td r => .lock ts td (tuplesT r)
  | .level ts td r n => .level ts td (tuplesT r) n
  | .set l v => .set (tuplesF l) v
  | .assign l r => .assign (tuplesT l) (tuplesT r)
  | .forall x e => .forall x (tuplesN e)
  | .cond c t e => .cond (tuplesF c) (tuplesN t) (tuplesN e)
  | .timed d e => .timed d (tuplesN e)

/-- The expression with all requests for a level made requests for a lock. -/
def locksN : NdlExpr → NdlExpr
  | .level ts td r _ => .lock ts td r
  | .forall x e => .forall x (locksN e)
  | .cond c t e => .cond c (locksN t) (locksN e)
  | .timed d e => .timed d (locksN e)
  | e => e

/-- The terms and formulas of the expression are over the stock `A`. -/
def OverN (A : Term → Prop) : NdlExpr → Prop
  | .lock _ _ r => OverT A r
  | .level _ _ r _ => OverT A r
  | .set l _ => OverF A l
  | .assign l r => OverT A l ∧ OverT A r
  | .forall _ e => OverN A e
  | .cond c t e => OverF A c ∧ OverN A t ∧ OverN A e
  | .timed _ e => OverN A e

/-- There is a universal effect in the expression. -/
def HasForall : NdlExpr → Prop
  | .forall _ _ => True
  | .cond _ t e => HasForall t ∨ HasForall e
  | .timed _ e => HasForall e
  | _ => False

/-- There is a request for a level in the expression. -/
def HasLevel : NdlExpr → Prop
  | .level _ _ _ _ => True
  | .forall _ e => HasLevel e
  | .cond _ t e => HasLevel t ∨ HasLevel e
  | .timed _ e => HasLevel e
  | _ => False

/-- The full statement: every expression has a text, and the text determines it up to the containers of subformulas. -/
def C127_full : Prop := ∀ (A : Term → Prop), LeavesApart A → ∀ a b, OverN A a → OverN A b →
  (∃ t, showN a = .ok t) ∧ (showN a = showN b ↔ tuplesN a = tuplesN b)

/-! ### Proof -/

/-- What may follow a number. -/
def AfterInt (r : Text) : Prop := ∀ c ∈ r.head?, isDig c = false ∧ c ≠ '-'

theorem after_nil : AfterInt [] := by intro c h; cases h
theorem after_blank (r : Text) : AfterInt (' ' :: r) := by intro c h; cases h; exact ⟨by decide, by decide⟩
theorem after_line (r : Text) : AfterInt ('\n' :: r) := by intro c h; cases h; exact ⟨by decide, by decide⟩

theorem chars_split : ∀ {w v r s : Text}, (∀ c ∈ w, isDig c = true ∨ c = '-') → (∀ c ∈ v, isDig c = true ∨ c = '-') → AfterInt r → AfterInt s →
    w ++ r = v ++ s → w = v ∧ r = s
  | [], [], _, _, _, _, _, _, h => ⟨rfl, h⟩
  | [], c :: v, r, s, _, hv, hr, _, h => by
    have h1 := hr c (by rw [show r = c :: (v ++ s) from h]; rfl)
    rcases hv c (by simp) with h2 | h2
    · rw [h2] at h1; cases h1.1
    · exact absurd h2 h1.2
  | c :: w, [], r, s, hw, _, _, hs, h => by
    have h1 := hs c (by rw [show s = c :: (w ++ r) from h.symm]; rfl)
    rcases hw c (by simp) with h2 | h2
    · rw [h2] at h1; cases h1.1
    · exact absurd h2 h1.2
  | c :: w, d :: v, r, s, hw, hv, hr, hs, h => by
    injection h with h1 h2
    obtain ⟨e1, e2⟩ := chars_split (fun c hc => hw c (by simp [hc])) (fun c hc => hv c (by simp [hc])) hr hs h2
    exact ⟨by rw [h1, e1], e2⟩

theorem int_chars_all (z : Int) : ∀ c ∈ intText z, isDig c = true ∨ c = '-' := by
  intro c hc
  by_contra h
  rw [not_or, Bool.not_eq_true] at h
  exact int_chars h.1 h.2 z hc

theorem int_read {a b : Int} {r s : Text} (hr : AfterInt r) (hs : AfterInt s) (h : intText a ++ r = intText b ++ s) : a = b ∧ r = s := by
  obtain ⟨e1, e2⟩ := chars_split (int_chars_all a) (int_chars_all b) hr hs h
  exact ⟨by rw [← intVal_intText a, ← intVal_intText b, e1], e2⟩

theorem bool_read {a b : Bool} {r s : Text} (h : boolShown a ++ r = boolShown b ++ s) : a = b ∧ r = s := by
  cases a <;> cases b <;> simp_all [boolShown]

/-- Like `showN`, for expressions that have a text. -/
def textN : NdlExpr → Text
  | .lock ts td r => requestShown ts td r
  | .level ts td r _ => requestShown ts td r
  | .set l v => ['S', 'E', 'T', '('] ++ showF l ++ [',', ' '] ++ boolShown v ++ [')']
  | .assign l r => ['A', 'S', 'S', 'I', 'G', 'N', '('] ++ showT l ++ [',', ' '] ++ showT r ++ [')']
  | .forall _ _ => []
  | .cond c t e => ['I', 'F', ' ', '('] ++ showF c ++ [')', ' ', '\n', 'T', 'H', 'E', 'N', ' '] ++ textN t ++ ['\n', ' ', 'E', 'L', 'S', 'E', ' '] ++ textN e
  | .timed d e => ['A', 'F', 'T', 'E', 'R', ' '] ++ intText d ++ [' ', 'A', 'P', 'P', 'L', 'Y', ' '] ++ textN e

theorem showN_cases : ∀ e, (HasForall e → showN e = .error .attribute) ∧ (¬ HasForall e → showN e = .ok (textN e))
  | .lock _ _ _ | .level _ _ _ _ | .set _ _ | .assign _ _ => by simp [HasForall, showN, textN]
  | .forall _ _ => by simp [HasForall, showN]
  | .cond c t e => by
    obtain ⟨h1, h2⟩ := showN_cases t
    obtain ⟨h3, h4⟩ := showN_cases e
    by_cases ht : HasForall t
    · simp [HasForall, showN, h1 ht, ht]
    · by_cases he : HasForall e
      · simp [HasForall, showN, h2 ht, h3 he, he]
      · simp [HasForall, showN, textN, h2 ht, h4 he, ht, he]
  | .timed d e => by
    obtain ⟨h1, h2⟩ := showN_cases e
    by_cases he : HasForall e
    · simp [HasForall, showN, h1 he, he]
    · simp [HasForall, showN, textN, h2 he, he]

theorem textN_tuples : ∀ e, textN (tuplesN e) = textN e
  | .lock _ _ _ | .level _ _ _ _ => by simp [tuplesN, textN, requestShown, showT_tuples]
  | .set _ _ => by simp [tuplesN, textN, showF_tuples]
  | .assign _ _ => by simp [tuplesN, textN, showT_tuples]
  | .forall _ _ => rfl
  | .cond c t e => by simp [tuplesN, textN, showF_tuples, textN_tuples t, textN_tuples e]
  | .timed d e => by simp [tuplesN, textN, textN_tuples e]

theorem textN_locks : ∀ e, textN (locksN e) = textN e
  | .lock _ _ _ | .level _ _ _ _ | .set _ _ | .assign _ _ => rfl
  | .forall _ _ => rfl
  | .cond c t e => by simp [locksN, textN, textN_locks t, textN_locks e]
  | .timed d e => by simp [locksN, textN, textN_locks e]

theorem locksN_id : ∀ e, ¬ HasLevel e → locksN e = e
  | .lock _ _ _, _ | .set _ _, _ | .assign _ _, _ => rfl
  | .level _ _ _ _, h => absurd trivial h
  | .forall x e, h => by simp only [locksN]; rw [locksN_id e h]
  | .cond c t e, h => by
    simp only [HasLevel, not_or] at h
    simp only [locksN]; rw [locksN_id t h.1, locksN_id e h.2]
  | .timed d e, h => by simp only [locksN]; rw [locksN_id e h]

variable {A : Term → Prop}

/-- The kind of an expression, as told by the first character. -/
theorem request_read (hA : LeavesApart A) {ts td ts' td' : Int} {r r' : Term} (h1 : OverT A r) (h2 : OverT A r') {x y : Text} (hx : AfterInt x) (hy : AfterInt y)
    (h : requestShown ts td r ++ x = requestShown ts' td' r' ++ y) : ts = ts' ∧ td = td' ∧ tuplesT r = tuplesT r' ∧ x = y := by
  simp only [requestShown, List.append_assoc, List.cons_append, List.nil_append, List.cons.injEq, true_and] at h
  obtain ⟨e1, h⟩ := sameT hA h1 h2 (follows_blank _) (follows_blank _) h
  simp only [List.cons.injEq, true_and] at h
  obtain ⟨e2, h⟩ := int_read (after_blank _) (after_blank _) h
  simp only [List.cons.injEq, true_and] at h
  obtain ⟨e3, h⟩ := int_read hx hy h
  exact ⟨e2, e3, e1, h⟩

theorem textN_read (hA : LeavesApart A) : ∀ {a b : NdlExpr}, OverN A a → OverN A b → ¬ HasForall a → ¬ HasForall b → ∀ {x y : Text}, AfterInt x → AfterInt y →
    textN a ++ x = textN b ++ y → locksN (tuplesN a) = locksN (tuplesN b) ∧ x = y
  | .forall _ _, _, _, _, h, _, _, _, _, _, _ => absurd trivial h
  | _, .forall _ _, _, _, _, h, _, _, _, _, _ => absurd trivial h
  | .lock _ _ _, .lock _ _ _, h1, h2, _, _, x, y, hx, hy, h | .lock _ _ _, .level _ _ _ _, h1, h2, _, _, x, y, hx, hy, h
  | .level _ _ _ _, .lock _ _ _, h1, h2, _, _, x, y, hx, hy, h | .level _ _ _ _, .level _ _ _ _, h1, h2, _, _, x, y, hx, hy, h => by
    obtain ⟨e1, e2, e3, e4⟩ := request_read hA h1 h2 hx hy h
    simp [locksN, tuplesN, e1, e2, e3, e4]
  | .set _ _, .set _ _, h1, h2, _, _, x, y, hx, hy, h => by
    simp only [textN, List.append_assoc, List.cons_append, List.nil_append, List.cons.injEq, true_and] at h
    obtain ⟨e1, h⟩ := sameF hA h1 h2 (follows_comma _) (follows_comma _) h
    simp only [List.cons.injEq, true_and] at h
    obtain ⟨e2, h⟩ := bool_read h
    simp only [List.cons.injEq, true_and] at h
    simp [locksN, tuplesN, e1, e2, h]
  | .assign _ _, .assign _ _, h1, h2, _, _, x, y, hx, hy, h => by
    simp only [textN, List.append_assoc, List.cons_append, List.nil_append, List.cons.injEq, true_and] at h
    obtain ⟨e1, h⟩ := sameT hA h1.1 h2.1 (follows_comma _) (follows_comma _) h
    simp only [List.cons.injEq, true_and] at h
    obtain ⟨e2, h⟩ := sameT hA h1.2 h2.2 (follows_close _) (follows_close _) h
    simp only [List.cons.injEq, true_and] at h
    simp [locksN, tuplesN, e1, e2, h]
  | .cond c t e, .cond c' t' e', h1, h2, n1, n2, x, y, hx, hy, h => by
    simp only [HasForall, not_or] at n1 n2
    simp only [textN, List.append_assoc, List.cons_append, List.nil_append, List.cons.injEq, true_and] at h
    obtain ⟨e1, h⟩ := sameF hA h1.1 h2.1 (follows_close _) (follows_close _) h
    simp only [List.cons.injEq, true_and] at h
    obtain ⟨e2, h⟩ := textN_read hA h1.2.1 h2.2.1 n1.1 n2.1 (after_line _) (after_line _) h
    simp only [List.cons.injEq, true_and] at h
    obtain ⟨e3, h⟩ := textN_read hA h1.2.2 h2.2.2 n1.2 n2.2 hx hy h
    simp [locksN, tuplesN, e1, e2, e3, h]
  | .timed d e, .timed d' e', h1, h2, n1, n2, x, y, hx, hy, h => by
    simp only [textN, List.append_assoc, List.cons_append, List.nil_append, List.cons.injEq, true_and] at h
    obtain ⟨e1, h⟩ := int_read (after_blank _) (after_blank _) h
    simp only [List.cons.injEq, true_and] at h
    obtain ⟨e2, h⟩ := textN_read (a := e) (b := e') hA h1 h2 n1 n2 hx hy h
    simp [locksN, tuplesN, e1, e2, h]
  | .lock _ _ _, .set _ _, _, _, _, _, _, _, _, _, h | .lock _ _ _, .assign _ _, _, _, _, _, _, _, _, _, h | .lock _ _ _, .cond _ _ _, _, _, _, _, _, _, _, _, h
  | .lock _ _ _, .timed _ _, _, _, _, _, _, _, _, _, h | .level _ _ _ _, .set _ _, _, _, _, _, _, _, _, _, h | .level _ _ _ _, .assign _ _, _, _, _, _, _, _, _, _, h
  | .level _ _ _ _, .cond _ _ _, _, _, _, _, _, _, _, _, h | .level _ _ _ _, .timed _ _, _, _, _, _, _, _, _, _, h | .set _ _, .lock _ _ _, _, _, _, _, _, _, _, _, h
  | .set _ _, .level _ _ _ _, _, _, _, _, _, _, _, _, h | .set _ _, .assign _ _, _, _, _, _, _, _, _, _, h | .set _ _, .cond _ _ _, _, _, _, _, _, _, _, _, h
  | .set _ _, .timed _ _, _, _, _, _, _, _, _, _, h | .assign _ _, .lock _ _ _, _, _, _, _, _, _, _, _, h | .assign _ _, .level _ _ _ _, _, _, _, _, _, _, _, _, h
  | .assign _ _, .set _ _, _, _, _, _, _, _, _, _, h | .assign _ _, .cond _ _ _, _, _, _, _, _, _, _, _, h | .assign _ _, .timed _ _, _, _, _, _, _, _, _, _, h
  | .cond _ _ _, .lock _ _ _, _, _, _, _, _, _, _, _, h | .cond _ _ _, .level _ _ _ _, _, _, _, _, _, _, _, _, h | .cond _ _ _, .set _ _, _, _, _, _, _, _, _, _, h
  | .cond _ _ _, .assign _ _, _, _, _, _, _, _, _, _, h | .cond _ _ _, .timed _ _, _, _, _, _, _, _, _, _, h | .timed _ _, .lock _ _ _, _, _, _, _, _, _, _, _, h
  | .timed _ _, .level _ _ _ _, _, _, _, _, _, _, _, _, h | .timed _ _, .set _ _, _, _, _, _, _, _, _, _, h | .timed _ _, .assign _ _, _, _, _, _, _, _, _, _, h
  | .timed _ _, .cond _ _ _, _, _, _, _, _, _, _, _, h => by
    simp [textN, requestShown] at h

/-! ### Theorems -/

/-- C127: an expression has a text exactly when there is no universal effect in it; otherwise `str` raises an `AttributeError`. -/
theorem C127_shown (e : NdlExpr) : ((∃ t, showN e = .ok t) ↔ ¬ HasForall e) ∧ (∀ x, showN e = .error x ↔ HasForall e ∧ x = .attribute) := by
  obtain ⟨h1, h2⟩ := showN_cases e
  by_cases h : HasForall e
  · simp [h1 h, h, eq_comm]
  · simp [h2 h, h]

/-- C127: two expressions have the same text exactly when they are the same, up to the containers of subformulas and to the difference between a request for
a lock and a request for a level. -/
theorem C127_text {a b : NdlExpr} (hA : LeavesApart A) (ha : OverN A a) (hb : OverN A b) (na : ¬ HasForall a) (nb : ¬ HasForall b) :
    showN a = showN b ↔ locksN (tuplesN a) = locksN (tuplesN b) := by
  rw [(showN_cases a).2 na, (showN_cases b).2 nb, Except.ok.injEq]
  constructor
  · intro h
    exact (textN_read hA ha hb na nb after_nil after_nil (by rw [h])).1
  · intro h
    rw [← textN_tuples a, ← textN_locks, h, textN_locks, textN_tuples]

theorem tuples_level : ∀ e, HasLevel (tuplesN e) ↔ HasLevel e
  | .lock _ _ _ | .level _ _ _ _ | .set _ _ | .assign _ _ => Iff.rfl
  | .forall _ e => tuples_level e
  | .cond _ t e => or_congr (tuples_level t) (tuples_level e)
  | .timed _ e => tuples_level e

/-- C127: without universal effects and requests for levels the text determines the expression, up to the containers of subformulas. -/
theorem C127_text_partial {a b : NdlExpr} (hA : LeavesApart A) (ha : OverN A a) (hb : OverN A b) (na : ¬ HasForall a) (nb : ¬ HasForall b)
    (la : ¬ HasLevel a) (lb : ¬ HasLevel b) : showN a = showN b ↔ tuplesN a = tuplesN b := by
  rw [C127_text hA ha hb na nb, locksN_id _ (fun h => la ((tuples_level a).1 h)), locksN_id _ (fun h => lb ((tuples_level b).1 h))]

/-- C127: the code violates the full statement: the level of a request is not printed, and a universal effect has no text. -/
theorem C127_refuted : ¬ C127_full ∧
    (∀ ts td r n, showN (.level ts td r n) = showN (.lock ts td r)) ∧ ∀ x e, showN (.forall x e) = .error .attribute := by
  refine ⟨fun h => ?_, fun _ _ _ _ => rfl, fun _ _ => rfl⟩
  have hx : OverT exStock (.app "camera" [.var ⟨"?x", "block"⟩]) := .app (by unfold ShownName; decide) (by decide) (by
    intro t ht
    rw [List.mem_singleton.1 ht]
    exact .leaf (.inl rfl))
  have := ((h exStock exStock_apart (.level 0 1 (.app "camera" [.var ⟨"?x", "block"⟩]) ⟨.int 0, "Integer"⟩) (.lock 0 1 (.app "camera" [.var ⟨"?x", "block"⟩])) hx hx).2).1 rfl
  simp [tuplesN] at this

/-- C127: `is_literal` tells atoms and negations of atoms from the other formulas. -/
theorem C127_literal (f : Formula) (hf : ∀ k fs, f = .comp k .not fs → fs.length = 1) :
    ∃ b, ndlLiteral f = .ok b ∧ (b = true ↔ (∃ p ts, f = .atom p ts) ∨ ∃ k p ts, f = .comp k .not [.atom p ts]) := by
  cases f with
  | top => exact ⟨false, rfl, by simp⟩
  | bot => exact ⟨false, rfl, by simp⟩
  | atom p ts => exact ⟨true, rfl, by simp⟩
  | quant q vs f => exact ⟨false, rfl, by simp⟩
  | comp k c fs =>
    cases c with
    | not =>
      match fs, hf k fs rfl with
      | [.atom p ts], _ => exact ⟨true, rfl, by simp⟩
      | [.top], _ | [.bot], _ | [.quant _ _ _], _ | [.comp _ _ _], _ => exact ⟨false, rfl, by simp⟩
    | and => exact ⟨false, rfl, by simp⟩
    | or => exact ⟨false, rfl, by simp⟩

/-! ### Examples -/

/-- A conditional effect with a request and an assignment in its branches. -/
def exNdl : NdlExpr := .timed 4 (.cond (exShown .tuple) (.set (.atom (.user "on") [.var ⟨"?x", "block"⟩, .const (.str "a") "block"]) true)
  (.assign (.app "f" [.var ⟨"?y", "block"⟩]) (.const (.int 3) "Integer")))

example : OverN exStock exNdl ∧ ¬ HasForall exNdl ∧ ¬ HasLevel exNdl :=
  ⟨⟨exShown_over _, .atom (by unfold ShownName; decide) (by decide) (by
      intro t ht
      rcases List.mem_cons.1 ht with rfl | ht
      · exact .leaf (.inl rfl)
      · rw [List.mem_singleton.1 ht]; exact .leaf (.inr (.inr (.inl rfl)))),
    .app (by unfold ShownName; decide) (by decide) (by
      intro t ht
      rw [List.mem_singleton.1 ht]; exact .leaf (.inr (.inl rfl))), .leaf (.inr (.inr (.inr rfl)))⟩, by simp [exNdl, HasForall], by simp [exNdl, HasLevel]⟩

example : showN exNdl = .ok "AFTER 4 APPLY IF ((on(?x,a) and (not exists ?y : (=(f(?y),3))))) \nTHEN SET(on(?x,a), True)\n ELSE ASSIGN(f(?y), 3)".toList := by
  have h : ¬ HasForall exNdl := by simp [exNdl, HasForall]
  rw [(showN_cases exNdl).2 h]
  exact congrArg _ (by decide +kernel)

/-- The hypothesis of `C127_literal`. -/
example : ∀ k fs, (.comp .tuple .not [.atom (.user "p") []] : Formula) = .comp k .not fs → fs.length = 1 := by
  intro k fs h
  cases h
  rfl

end Tarski

import Verif.PddlCaseLemmas
/-! Lemmas: what the visitor reads does not depend on the case of the letters, up to the names it keeps. -/
namespace Tarski

@[simp] theorem lower_tok (t : PTok) : (SX.tok t).lower = .tok t.lower := by simp [SX.lower]
@[simp] theorem lower_list (xs : List SX) : (SX.list xs).lower = .list (lowerL xs) := by simp [SX.lower]
@[simp] theorem lowerL_nil : lowerL [] = [] := by simp [lowerL]
@[simp] theorem lowerL_cons (x : SX) (xs : List SX) : lowerL (x :: xs) = x.lower :: lowerL xs := by simp [lowerL]

/-! Tokens that look like a given token after lowercasing. -/
@[simp] theorem tl_name (s) : (PTok.name s).lower = .name (lowerS s) := rfl
@[simp] theorem tl_var (s) : (PTok.var s).lower = .var (lowerS s) := rfl
@[simp] theorem tl_ext (s) : (PTok.ext s).lower = .ext (lowerS s) := rfl
@[simp] theorem tl_num (s) : (PTok.num s).lower = .num s := rfl
@[simp] theorem tl_kw (s) : (PTok.kw s).lower = .kw s := rfl
@[simp] theorem tl_ckw (s) : (PTok.ckw s).lower = .ckw s := rfl
@[simp] theorem tl_cmp (s) : (PTok.cmp s).lower = .cmp s := rfl
@[simp] theorem tl_ar (s) : (PTok.ar s).lower = .ar s := rfl
@[simp] theorem tl_lpar : PTok.lpar.lower = .lpar := rfl
@[simp] theorem tl_rpar : PTok.rpar.lower = .rpar := rfl
@[simp] theorem tl_dash : PTok.dash.lower = .dash := rfl
@[simp] theorem tl_dots : PTok.dots.lower = .dots := rfl
@[simp] theorem tl_lbrk : PTok.lbrk.lower = .lbrk := rfl
@[simp] theorem tl_rbrk : PTok.rbrk.lower = .rbrk := rfl

@[simp] theorem tle_name (t : PTok) (s) : t.lower = .name s ↔ ∃ s', t = .name s' ∧ lowerS s' = s := by cases t <;> simp [PTok.lower]
@[simp] theorem tle_var (t : PTok) (s) : t.lower = .var s ↔ ∃ s', t = .var s' ∧ lowerS s' = s := by cases t <;> simp [PTok.lower]
@[simp] theorem tle_ext (t : PTok) (s) : t.lower = .ext s ↔ ∃ s', t = .ext s' ∧ lowerS s' = s := by cases t <;> simp [PTok.lower]
@[simp] theorem tle_num (t : PTok) (s) : t.lower = .num s ↔ t = .num s := by cases t <;> simp [PTok.lower]
@[simp] theorem tle_kw (t : PTok) (s) : t.lower = .kw s ↔ t = .kw s := by cases t <;> simp [PTok.lower]
@[simp] theorem tle_ckw (t : PTok) (s) : t.lower = .ckw s ↔ t = .ckw s := by cases t <;> simp [PTok.lower]
@[simp] theorem tle_cmp (t : PTok) (s) : t.lower = .cmp s ↔ t = .cmp s := by cases t <;> simp [PTok.lower]
@[simp] theorem tle_ar (t : PTok) (s) : t.lower = .ar s ↔ t = .ar s := by cases t <;> simp [PTok.lower]
@[simp] theorem tle_dash (t : PTok) : t.lower = .dash ↔ t = .dash := by cases t <;> simp [PTok.lower]
@[simp] theorem tle_dots (t : PTok) : t.lower = .dots ↔ t = .dots := by cases t <;> simp [PTok.lower]
@[simp] theorem tle_lbrk (t : PTok) : t.lower = .lbrk ↔ t = .lbrk := by cases t <;> simp [PTok.lower]
@[simp] theorem tle_rbrk (t : PTok) : t.lower = .rbrk ↔ t = .rbrk := by cases t <;> simp [PTok.lower]

@[simp] theorem xle_tok (x : SX) (t) : x.lower = .tok t ↔ ∃ u, x = .tok u ∧ u.lower = t := by cases x <;> simp
@[simp] theorem xle_list (x : SX) (ys) : x.lower = .list ys ↔ ∃ xs, x = .list xs ∧ lowerL xs = ys := by cases x <;> simp
@[simp] theorem lle_nil (xs : List SX) : lowerL xs = [] ↔ xs = [] := by cases xs <;> simp
@[simp] theorem lle_cons (xs : List SX) (y ys) : lowerL xs = y :: ys ↔ ∃ x zs, xs = x :: zs ∧ x.lower = y ∧ lowerL zs = ys := by
  cases xs <;> simp

theorem lowerL_length (xs : List SX) : (lowerL xs).length = xs.length := by
  induction xs with
  | nil => rfl
  | cons x xs ih => simp [ih]

attribute [local simp] lowerS_idem

theorem readVar_lower (b s) : readVar b (lowerS s) = readVar b s := by simp [readVar]
theorem readObject_lower (L s) : readObject L (lowerS s) = readObject L s := by simp [readObject]
theorem mkUserAtom_lower (L s vs) : mkUserAtom L (lowerS s) vs = mkUserAtom L s vs := by simp [mkUserAtom]
theorem mkUserApp_lower (L s vs) : mkUserApp L (lowerS s) vs = mkUserApp L s vs := by simp [mkUserApp]

mutual
theorem readT_lower (L : RLang) (b : Option VBinding) : ∀ x : SX, readT L b x.lower = readT L b x
  | .tok t => by cases t <;> simp [PTok.lower, readT, readObject_lower, readVar_lower]
  | .list xs => by
    rw [lower_list]
    match xs with
    | [] => simp
    | x :: ys =>
      cases x with
      | list zs => simp [readT]
      | tok t =>
        have ih := readTs_lower L b ys
        match ys with
        | [] => cases t <;> simp_all [readT, PTok.lower, mkUserApp_lower]
        | [y] => cases t <;> simp_all [readT, PTok.lower, mkUserApp_lower]
        | [y, z] =>
          have h1 := readT_lower L b y
          have h2 := readT_lower L b z
          cases t with
          | kw k => cases k <;> simp_all [readT, PTok.lower, mkUserApp_lower]
          | _ => simp_all [readT, PTok.lower, mkUserApp_lower]
        | y :: z :: u :: l => cases t <;> simp_all [readT, PTok.lower, mkUserApp_lower]
theorem readTs_lower (L : RLang) (b : Option VBinding) : ∀ xs : List SX, readTs L b (lowerL xs) = readTs L b xs
  | [] => by simp
  | x :: xs => by simp [readTs, readT_lower L b x, readTs_lower L b xs]
end

theorem readTypename_lower (x : SX) : readTypename x.lower = readTypename x := by
  cases x with
  | list xs => simp [readTypename]
  | tok t => cases t <;> simp [PTok.lower, readTypename]

theorem mkVars_lower (L : RLang) (ns : List String) (s) : mkVars L (ns.map lowerS) s = mkVars L ns s := by
  simp [mkVars, Function.comp_def]

theorem readVarsGo_lower (L : RLang) (n : Nat) : ∀ (xs : List SX), xs.length ≤ n → ∀ pend,
    readVarsGo L (pend.map lowerS) (lowerL xs) = readVarsGo L pend xs := by
  induction n with
  | zero => intro xs h pend; cases xs with
    | nil => simp [readVarsGo, mkVars_lower]
    | cons x xs => simp at h
  | succ n ih =>
    intro xs h pend
    cases xs with
    | nil => simp [readVarsGo, mkVars_lower]
    | cons x xs =>
      cases x with
      | list zs => simp [readVarsGo]
      | tok t =>
        have e := ih xs (by simp at h; omega)
        cases t with
        | var s =>
          have := e (pend ++ [s])
          simpa [readVarsGo] using this
        | dash =>
          cases xs with
          | nil => simp [readVarsGo]
          | cons ty ys =>
            have e2 := ih ys (by simp at h; omega) []
            simp only [List.map_nil] at e2
            simp [readVarsGo, readTypename_lower, mkVars_lower, e2]
        | _ => simp [readVarsGo, PTok.lower]

theorem readVarsList_lower (L : RLang) (xs : List SX) : readVarsList L (lowerL xs) = readVarsList L xs :=
  readVarsGo_lower L _ xs (Nat.le_refl _) []

set_option maxHeartbeats 1000000 in
mutual
theorem readF_lower (L : RLang) : ∀ (b : Option VBinding) (x : SX), readF L b x.lower = readF L b x
  | b, .tok t => by cases t <;> simp [PTok.lower, readF]
  | b, .list xs => by
    rw [lower_list]
    match xs with
    | [] => simp
    | x :: ys =>
      cases x with
      | list zs => simp [readF]
      | tok t =>
        have ih := readFs_lower L b ys
        have iht := readTs_lower L b ys
        match ys with
        | [] =>
          cases t with
          | kw k => cases k <;> simp [readF, ih]
          | _ => simp_all only [lowerL_cons, lowerL_nil, lower_tok, readF, PTok.lower, mkUserAtom_lower]
        | [y] =>
          simp only [lowerL_cons, lowerL_nil] at ih
          have h1 := readF_lower L b y
          cases t with
          | kw k => cases k <;> simp [readF, ih, h1]
          | _ => simp_all only [lowerL_cons, lowerL_nil, lower_tok, readF, PTok.lower, mkUserAtom_lower]
        | [y, z] =>
          simp only [lowerL_cons, lowerL_nil] at ih
          have h1 := readF_lower L b y
          have h2 := fun b => readF_lower L b z
          have h3 := readT_lower L b y
          have h4 := readT_lower L b z
          cases t with
          | kw k => cases k <;> first | (simp [readF, h1, h2]; done) | (simp [readF, ih]; done) | (cases y <;> simp [readF, readVarsList_lower, h2])
          | _ => simp_all only [lowerL_cons, lowerL_nil, lower_tok, readF, PTok.lower, mkUserAtom_lower]
        | y :: z :: u :: l =>
          simp only [lowerL_cons, lowerL_nil] at ih
          cases t with
          | kw k => cases k <;> simp [readF, ih]
          | _ => simp_all only [lowerL_cons, lowerL_nil, lower_tok, readF, PTok.lower, mkUserAtom_lower]
theorem readFs_lower (L : RLang) : ∀ (b : Option VBinding) (xs : List SX), readFs L b (lowerL xs) = readFs L b xs
  | _, [] => by simp
  | b, x :: xs => by simp [readFs, readF_lower L b x, readFs_lower L b xs]
end

end Tarski

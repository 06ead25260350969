import Verif.PddlCaseRead
/-! Lemmas: the case of the letters, in effects, actions and initial states. -/
namespace Tarski

attribute [local simp] lowerS_idem

theorem readAtomF_lower (L : RLang) (b : Option VBinding) (x : SX) : readAtomF L b x.lower = readAtomF L b x := by
  cases x with
  | tok t => simp [readAtomF]
  | list xs =>
    cases xs with
    | nil => simp
    | cons x xs =>
      cases x with
      | list ys => simp [readAtomF]
      | tok t => cases t <;> simp [readAtomF, PTok.lower, readTs_lower, mkUserAtom_lower]

theorem readFunT_lower (L : RLang) (b : Option VBinding) (x : SX) : readFunT L b x.lower = readFunT L b x := by
  cases x with
  | tok t => simp [readFunT]
  | list xs =>
    have := readT_lower L b (.list xs)
    rw [lower_list] at this
    simp [readFunT, this]

theorem readAssign_lower (L : RLang) (b : Option VBinding) (x y : SX) :
    readAssign L b x.lower y.lower = readAssign L b x y := by
  simp [readAssign, readFunT_lower, readT_lower]

theorem readUpdate_lower (L : RLang) (b : Option VBinding) (op) (x y : SX) :
    readUpdate L b op x.lower y.lower = readUpdate L b op x y := by
  simp [readUpdate, readFunT_lower, readT_lower]

theorem readAtomic_lower (L : RLang) (b : Option VBinding) (x : SX) : readAtomic L b x.lower = readAtomic L b x := by
  have e := readAtomF_lower L b x
  cases x with
  | tok t => simp_all [readAtomic]
  | list xs =>
    rw [lower_list] at e ⊢
    match xs with
    | [] => simp
    | .list zs :: ys => simp_all [readAtomic]
    | .tok t :: ys =>
      match ys with
      | [] => simp only [lowerL_cons, lowerL_nil, lower_tok] at e ⊢; simp [readAtomic, e]
      | [y] =>
        simp only [lowerL_cons, lowerL_nil, lower_tok] at e ⊢
        have h := readAtomF_lower L b y
        cases t with
        | kw k => cases k <;> (simp only [tl_kw] at e ⊢; simp [readAtomic, e, h])
        | _ => (simp only [PTok.lower] at e ⊢; simp [readAtomic, e])
      | [y, z] =>
        simp only [lowerL_cons, lowerL_nil, lower_tok] at e ⊢
        cases t with
        | kw k => cases k <;> (simp only [tl_kw]; simp [readAtomic, readAssign_lower, readUpdate_lower])
        | _ => (simp only [PTok.lower] at e ⊢; simp [readAtomic, e])
      | y :: z :: u :: l =>
        simp only [lowerL_cons, lower_tok] at e ⊢
        simp [readAtomic, e]

theorem readAtomics_lower (L : RLang) (b : Option VBinding) (xs : List SX) :
    readAtomics L b (lowerL xs) = readAtomics L b xs := by
  induction xs with
  | nil => simp
  | cons x xs ih => simp [readAtomics, readAtomic_lower, ih]

theorem readWhen_lower (L : RLang) (b : Option VBinding) (c x : SX) : readWhen L b c.lower x.lower = readWhen L b c x := by
  have e := readAtomic_lower L b x
  unfold readWhen
  rw [readF_lower]
  cases readF L b c with
  | error e => rfl
  | ok f =>
    cases x with
    | tok t => simp_all
    | list xs =>
      rw [lower_list] at e ⊢
      match xs with
      | [] => simp
      | .list zs :: ys => simp_all
      | .tok t :: ys =>
        simp only [lowerL_cons, lower_tok] at e ⊢
        cases t with
        | kw k => cases k <;> (simp only [tl_kw] at e ⊢; simp [readAtomics_lower, e])
        | _ => (simp only [PTok.lower] at e ⊢; simp [e])

set_option maxHeartbeats 1000000 in
mutual
theorem readEff_lower (L : RLang) : ∀ (b : Option VBinding) (top : Bool) (x : SX), readEff L b top x.lower = readEff L b top x
  | b, top, .tok t => by
    have e := readAtomic_lower L b (.tok t)
    rw [lower_tok] at e ⊢
    simp [readEff, e]
  | b, top, .list xs => by
    have e := readAtomic_lower L b (.list xs)
    rw [lower_list] at e ⊢
    match xs with
    | [] => simp
    | .list zs :: ys => simp_all [readEff]
    | .tok t :: ys =>
      have ih := readEffs_lower L b ys
      match ys with
      | [] =>
        simp only [lowerL_cons, lowerL_nil, lower_tok] at e ih ⊢
        cases t with
        | kw k => cases k <;> (simp only [tl_kw] at e; simp [readEff, e])
        | _ => (simp only [PTok.lower] at e; simp [readEff, e, PTok.lower])
      | [y] =>
        simp only [lowerL_cons, lowerL_nil, lower_tok] at e ih ⊢
        cases t with
        | kw k => cases k <;> (simp only [tl_kw] at e; simp [readEff, e, ih])
        | _ => (simp only [PTok.lower] at e; simp [readEff, e, PTok.lower])
      | [y, z] =>
        have h2 := fun b top => readEff_lower L b top z
        simp only [lowerL_cons, lowerL_nil, lower_tok] at e ih ⊢
        cases t with
        | kw k => cases k <;> first
          | (simp only [tl_kw] at e; simp [readEff, e]; done)
          | (simp only [tl_kw] at e; simp [readEff, ih]; done)
          | (simp only [tl_kw] at e; simp [readEff, readWhen_lower]; done)
          | (simp only [tl_kw] at e; cases y <;> simp_all [readEff, readVarsList_lower])
        | _ => (simp only [PTok.lower] at e; simp [readEff, e, PTok.lower])
      | y :: z :: u :: l =>
        simp only [lowerL_cons, lower_tok] at e ih ⊢
        cases t with
        | kw k => cases k <;> (simp only [tl_kw] at e; simp [readEff, e, ih])
        | _ => (simp only [PTok.lower] at e; simp [readEff, e, PTok.lower])
theorem readEffs_lower (L : RLang) : ∀ (b : Option VBinding) (xs : List SX), readEffs L b (lowerL xs) = readEffs L b xs
  | _, [] => by simp
  | b, x :: xs => by simp [readEffs, readEff_lower L b false x, readEffs_lower L b xs]
end

theorem readPre_lower (L : RLang) (b : Option VBinding) (x : SX) : readPre L b x.lower = readPre L b x := by
  have e := readF_lower L b x
  cases x with
  | tok t => simp_all [readPre]
  | list xs => cases xs <;> simp_all [readPre]

/-! ### Initial states -/

theorem readCon_lower (L : RLang) (x : SX) : readCon L x.lower = readCon L x := by
  cases x with
  | list xs => simp [readCon]
  | tok t => cases t <;> simp [readCon, PTok.lower]

theorem readCons_lower (L : RLang) (xs : List SX) : readCons L (lowerL xs) = readCons L xs := by
  induction xs with
  | nil => simp
  | cons x xs ih => simp [readCons, readCon_lower, ih]

theorem initAdd_lower (M L real p xs) : initAdd M L real (lowerS p) (lowerL xs) = initAdd M L real p xs := by
  simp [initAdd, readCons_lower]

theorem initSet_lower (M L real f xs) (v : SX) : initSet M L real (lowerS f) (lowerL xs) v.lower = initSet M L real f xs v := by
  simp [initSet, readCons_lower, readCon_lower]

theorem isConTok_lower (x : SX) : isConTok x.lower = isConTok x := by
  cases x with
  | list xs => simp [isConTok]
  | tok t => cases t <;> simp [isConTok, PTok.lower]

theorem all_lowerL (p : SX → Bool) (hp : ∀ x : SX, p x.lower = p x) (xs : List SX) : (lowerL xs).all p = xs.all p := by
  induction xs with
  | nil => simp
  | cons x xs ih => simp [hp, ih]

theorem any_lowerL (p : SX → Bool) (hp : ∀ x : SX, p x.lower = p x) (xs : List SX) : (lowerL xs).any p = xs.any p := by
  induction xs with
  | nil => simp
  | cons x xs ih => simp [hp, ih]

theorem initOp_lower (M L real) (x : SX) : initOp M L real x.lower = initOp M L real x := by
  cases x with
  | tok t => simp [initOp]
  | list xs =>
    rw [lower_list]
    match xs with
    | [] => simp
    | .list zs :: ys => simp [initOp]
    | .tok t :: ys =>
      simp only [lowerL_cons, lower_tok]
      match ys with
      | [] => cases t <;> simp [initOp, PTok.lower, ← initAdd_lower M L real _ []]
      | [.tok y] =>
        have := fun p => initAdd_lower M L real p [.tok y]
        simp only [lowerL_cons, lowerL_nil, lower_tok] at this
        cases t <;> simp [initOp, this]
      | [.list zs] =>
        have := fun p => initAdd_lower M L real p [.list zs]
        simp only [lowerL_cons, lowerL_nil, lower_list] at this
        cases t with
        | kw k => cases k <;> first | (simp [initOp]; done) | (match zs with
          | [] => simp
          | .list _ :: _ => simp [initOp]
          | .tok u :: us => cases u <;> simp [initOp, PTok.lower, all_lowerL isConTok isConTok_lower])
        | _ => simp [initOp, PTok.lower, this]
      | [y, z] =>
        have := fun p => initAdd_lower M L real p [y, z]
        simp only [lowerL_cons, lowerL_nil] at this
        cases t with
        | cmp c => cases c <;> first | (simp [initOp]; done) | (cases y with
          | tok _ => simp [initOp]
          | list zs => match zs with
            | [] => simp [initOp]
            | .list _ :: _ => simp [initOp]
            | .tok u :: us => cases u <;> simp [initOp, PTok.lower, initSet_lower])
        | _ => simp [initOp, PTok.lower, this]
      | y :: z :: u :: l =>
        have := fun p => initAdd_lower M L real p (y :: z :: u :: l)
        simp only [lowerL_cons] at this
        cases t <;> simp [initOp, PTok.lower, this]

theorem readInitGo_lower (M L real) (m : MState) (xs : List SX) :
    readInitGo M L real m (lowerL xs) = readInitGo M L real m xs := by
  induction xs generalizing m with
  | nil => simp
  | cons x xs ih => simp [readInitGo, initOp_lower, ih]

end Tarski

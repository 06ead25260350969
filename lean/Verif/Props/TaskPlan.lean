import Verif.TaskInput
import Verif.Props.Pipeline
import Verif.Props.PddlCase
import Mathlib.Tactic.IntervalCases
import Mathlib.Logic.Relation
/-! C119: planning for the problems that the reader of PDDL makes. -/
namespace Tarski

/-! ### Specification -/

/-- A lower-case letter, followed by lower-case letters, digits, hyphens and underscores. -/
def LowerName (s : String) : Prop :=
  ∃ c cs, s.toList = c :: cs ∧ c.isLower = true ∧ ∀ x ∈ cs, x.isLower = true ∨ x.isDigit = true ∨ x = '-' ∨ x = '_'

/-- The sorts have different names, none of them in `seen`, and every parent is in `seen` or was declared before. -/
def SortsFrom : List String → List SDecl → Prop
  | _, [] => True
  | seen, d :: ds => d.name ∉ seen ∧ d.parent ∈ seen ∧ SortsFrom (d.name :: seen) ds

/-- A declared sort that is not an interval. -/
def ObjectSort (D : PDecls) (s : String) : Prop := D.hasSort s = true ∧ D.bounds s = none

/-- A STRIPS problem as the reader of PDDL makes it: sorts, objects, initial state, actions and goal. -/
structure StripsProblem (p : PProblem) (costFns : List String) : Prop where
  sorts : SortsFrom ["object"] p.lang.allSorts
  parents : ∀ d ∈ p.lang.allSorts, d.bounds = none → p.lang.bounds d.parent = none
  consts : ∀ c ∈ p.lang.consts, (∃ n, c.1 = .str n ∧ LowerName n) ∧ ObjectSort p.lang c.2
  distinct : (p.lang.consts.map Prod.fst).Nodup
  init : ∃ ops, p.init = MState.empty.run p.lang.mlang ops
  facts : ∀ q pt, p.init.holds p.lang.mlang q pt = true → Legible q ∧ ∀ c ∈ pt, (c.name, c.sort) ∈ p.lang.consts
  values : ∀ f pt v, p.init.value p.lang.mlang f pt = .ok v →
    (f = "total-cost" ∨ f ∈ costFns) ∧ Legible f ∧ (∀ c ∈ pt, (c.name, c.sort) ∈ p.lang.consts) ∧ (∃ i, v.name = .int i) ∧ Legible v.sort
  names : (p.actions.map PAction.name).Nodup
  params : ∀ a ∈ p.actions, (a.params.map Var.sym).Nodup ∧
    ∀ v ∈ a.params, (∃ n, v.sym = "?" ++ n ∧ LowerName n) ∧ ObjectSort p.lang v.sort
  pre : ∀ a ∈ p.actions, StripsCond (lpInputOf p costFns) a.params a.pre
  effs : ∀ a ∈ p.actions, ∀ e ∈ a.effs, StripsEff (lpInputOf p costFns) p.lang.mlang a.params e
  adds : ∀ a ∈ p.actions, ∀ q ts, Effect.add .top (.user q) ts ∈ a.effs → Legible q
  goal : ∃ g, p.goal = some g ∧ StripsCond (lpInputOf p costFns) [] g

mutual
/-- The formula `false` does not occur. -/
def NoFalse : Formula → Prop
  | .bot => False
  | .comp _ _ fs => NoFalses fs
  | .quant _ _ f => NoFalse f
  | _ => True
def NoFalses : List Formula → Prop
  | [] => True
  | f :: fs => NoFalse f ∧ NoFalses fs
end

/-! ### Names -/

theorem lower_cases {c : Char} (h : c.isLower = true) : c ∈ "abcdefghijklmnopqrstuvwxyz".toList := by
  have h1 : 97 ≤ c.toNat ∧ c.toNat ≤ 122 := by
    simp only [Char.isLower, Bool.and_eq_true, decide_eq_true_eq, UInt32.le_iff_toNat_le] at h
    exact h
  have h2 : c = Char.ofNat c.toNat := (Char.ofNat_toNat c).symm
  obtain ⟨n, hn⟩ : ∃ n, n = c.toNat := ⟨_, rfl⟩
  rw [← hn] at h1 h2
  obtain ⟨h3, h4⟩ := h1
  rw [h2]
  interval_cases n <;> decide

theorem lower_facts {c : Char} (h : c.isLower = true) : c.toLower = c ∧ c.isUpper = false ∧ c.isAlpha = true ∧ c ≠ '(' ∧ c ≠ ')' ∧ c ≠ ',' ∧ c ≠ ' ' ∧
    c ≠ '_' ∧ c.toUpper.isUpper = true ∧ c.toUpper ≠ '_' ∧ c.toUpper.toLower = c := by
  have hc := lower_cases h
  revert c
  intro c _ hc
  have : ∀ c ∈ "abcdefghijklmnopqrstuvwxyz".toList, c.toLower = c ∧ c.isUpper = false ∧ c.isAlpha = true ∧ c ≠ '(' ∧ c ≠ ')' ∧ c ≠ ',' ∧ c ≠ ' ' ∧
    c ≠ '_' ∧ c.toUpper.isUpper = true ∧ c.toUpper ≠ '_' ∧ c.toUpper.toLower = c := by decide
  exact this c hc

theorem digit_cases {c : Char} (h : c.isDigit = true) : c ∈ "0123456789".toList := by
  have h1 : 48 ≤ c.toNat ∧ c.toNat ≤ 57 := by
    simp only [Char.isDigit, Bool.and_eq_true, decide_eq_true_eq, ge_iff_le, UInt32.le_iff_toNat_le] at h
    exact h
  have h2 : c = Char.ofNat c.toNat := (Char.ofNat_toNat c).symm
  obtain ⟨n, hn⟩ : ∃ n, n = c.toNat := ⟨_, rfl⟩
  rw [← hn] at h1 h2
  obtain ⟨h3, h4⟩ := h1
  rw [h2]
  interval_cases n <;> decide

theorem rest_facts {c : Char} (h : c.isLower = true ∨ c.isDigit = true ∨ c = '-' ∨ c = '_') :
    c.toLower = c ∧ c ≠ '(' ∧ c ≠ ')' ∧ c ≠ ',' ∧ c ≠ ' ' := by
  rcases h with h | h | rfl | rfl
  · have := lower_facts h
    exact ⟨this.1, this.2.2.2.1, this.2.2.2.2.1, this.2.2.2.2.2.1, this.2.2.2.2.2.2.1⟩
  · have : ∀ c ∈ "0123456789".toList, c.toLower = c ∧ c ≠ '(' ∧ c ≠ ')' ∧ c ≠ ',' ∧ c ≠ ' ' := by decide
    exact this c (digit_cases h)
  · decide
  · decide

theorem LowerName.legible {s : String} (h : LowerName s) : Legible s := by
  obtain ⟨c, cs, h1, h2, h3⟩ := h
  refine ⟨?_, ?_⟩
  · rintro rfl; simp at h1
  · intro x hx
    rw [h1] at hx
    rcases List.mem_cons.1 hx with rfl | hx
    · exact (rest_facts (.inl h2)).2
    · exact (rest_facts (h3 x hx)).2

theorem LowerName.uncap {s : String} (h : LowerName s) : uncapitalize s = .ok s := by
  obtain ⟨c, cs, h1, h2, h3⟩ := h
  simp only [uncapitalize, h1, (lower_facts h2).1]
  rw [← h1, String.ofList_toList]

theorem LowerName.notVar {s : String} (h : LowerName s) : isAspVar s = false := by
  obtain ⟨c, cs, h1, h2, h3⟩ := h
  have hc := lower_facts h2
  have : (c == '_') = false := by simpa using hc.2.2.2.2.2.2.2.1
  simp only [isAspVar, h1, List.dropWhile_cons, this, Bool.false_eq_true, if_false, hc.2.1]

theorem LowerName.varName {s : String} (h : LowerName s) : ∃ x, makeVarName ("?" ++ s) = .ok x ∧ isAspVar x = true ∧
    x.toList.map Char.toLower = s.toList := by
  obtain ⟨c, cs, h1, h2, h3⟩ := h
  have hc := lower_facts h2
  have hm : cs.map Char.toLower = cs := by
    conv_rhs => rw [← List.map_id cs]
    exact List.map_congr_left fun x hx => (rest_facts (h3 x hx)).1
  refine ⟨String.ofList (c.toUpper :: cs), ?_, ?_, ?_⟩
  · have e : ("?" ++ s).toList = '?' :: c :: cs := by rw [String.toList_append, h1]; rfl
    simp only [makeVarName, e, pyCapitalize, String.toList_ofList, hm]
    rfl
  · have : (c.toUpper == '_') = false := by simpa using hc.2.2.2.2.2.2.2.2.2.1
    simp only [isAspVar, String.toList_ofList, List.dropWhile_cons, this, Bool.false_eq_true, if_false, hc.2.2.2.2.2.2.2.2.1]
  · rw [String.toList_ofList, h1, List.map_cons, hm, hc.2.2.2.2.2.2.2.2.2.2]

theorem varName_inj {s t : String} (hs : LowerName s) (ht : LowerName t) (h : makeVarName ("?" ++ s) = makeVarName ("?" ++ t)) : s = t := by
  obtain ⟨x, h1, -, h2⟩ := hs.varName
  obtain ⟨y, h3, -, h4⟩ := ht.varName
  rw [h1, h3, Except.ok.injEq] at h
  exact String.toList_injective (by rw [← h2, ← h4, h])

theorem natText_digits (n : Nat) : ∀ c ∈ (toString n).toList, isDig c = true := by
  intro c hc
  by_contra h
  exact natText_no (by simpa using h) n hc

theorem intText_cases (i : Int) : (∃ n : Nat, i = n ∧ toString i = toString n) ∨
    ∃ n : Nat, i = -((n : Int) + 1) ∧ toString i = "-" ++ toString (n + 1) := by
  cases i with
  | ofNat n => exact .inl ⟨n, rfl, rfl⟩
  | negSucc n => exact .inr ⟨n, by omega, rfl⟩

theorem intText_legible (i : Int) : Legible (toString i) := by
  have key : ∀ c : Char, isDig c = true → c ≠ '(' ∧ c ≠ ')' ∧ c ≠ ',' ∧ c ≠ ' ' := by
    intro c hc
    refine ⟨?_, ?_, ?_, ?_⟩ <;> (rintro rfl; exact absurd hc (by decide))
  rcases intText_cases i with ⟨n, -, h⟩ | ⟨n, -, h⟩
  · rw [h]
    exact ⟨natText_ne n, fun c hc => key c (natText_digits n c hc)⟩
  · rw [h]
    refine ⟨?_, ?_⟩
    · intro e
      have := congrArg String.toList e
      rw [String.toList_append] at this
      simp at this
    · intro c hc
      rw [String.toList_append, List.mem_append] at hc
      rcases hc with hc | hc
      · have : c = '-' := by simpa using hc
        subst this
        decide
      · exact key c (natText_digits _ c hc)

theorem intText_inj {i j : Int} (h : toString i = toString j) : i = j := by
  have mixed : ∀ n m : Nat, toString n ≠ "-" ++ toString (m + 1) := by
    intro n m e
    have h1 : '-' ∈ (toString n).toList := by rw [e, String.toList_append]; simp
    exact absurd (natText_digits n _ h1) (by decide)
  rcases intText_cases i with ⟨n, rfl, h1⟩ | ⟨n, rfl, h1⟩ <;> rcases intText_cases j with ⟨m, rfl, h2⟩ | ⟨m, rfl, h2⟩ <;> rw [h1, h2] at h
  · rw [natText_inj h]
  · exact absurd h (mixed n m)
  · exact absurd h.symm (mixed m n)
  · have e := congrArg String.toList h
    rw [String.toList_append, String.toList_append] at e
    have := natText_inj (String.toList_injective (List.append_cancel_left e))
    omega

/-! ### Sorts -/

theorem SortsFrom.rank : ∀ {ds : List SDecl} {seen : List String}, SortsFrom seen ds → ∃ r : String → Nat, (∀ s ∈ seen, r s = 0) ∧
    (∀ s, r s ≤ ds.length) ∧ ∀ s d, ds.find? (fun d => d.name == s) = some d → r d.parent < r s
  | [], _, _ => ⟨fun _ => 0, by simp, by simp, by simp⟩
  | d :: ds, seen, h => by
    obtain ⟨h1, h2, h3⟩ := h
    obtain ⟨r, r1, r2, r3⟩ := h3.rank
    refine ⟨fun s => if s ∈ seen then 0 else r s + 1, fun s hs => by simp [hs], fun s => ?_, fun s e he => ?_⟩
    · have := r2 s
      simp only [List.length_cons]
      split <;> omega
    · rw [List.find?_cons] at he
      by_cases hd : d.name = s
      · subst hd
        simp only [beq_self_eq_true, Option.some.injEq] at he
        subst he
        simp [h1, h2]
      · have hb : (d.name == s) = false := by simpa using hd
        rw [hb] at he
        have := r3 s e he
        have hs : s ∉ seen := fun hs => by
          have := r1 s (by simp [hs])
          omega
        simp only [hs, if_false]
        split <;> omega

theorem SortsFrom.parent_mem : ∀ {ds : List SDecl} {seen : List String}, SortsFrom seen ds → ∀ d ∈ ds, d.parent ∈ seen ∨ d.parent ∈ ds.map SDecl.name
  | [], _, _, _, h => by cases h
  | d :: ds, seen, h, e, he => by
    obtain ⟨h1, h2, h3⟩ := h
    rcases List.mem_cons.1 he with rfl | he
    · exact .inl h2
    · rcases h3.parent_mem e he with h | h
      · rcases List.mem_cons.1 h with h | h
        · exact .inr (by simp [h])
        · exact .inl h
      · exact .inr (by simp at h ⊢; exact .inr h)

theorem subGo_refl (par : String → Option String) (k : Nat) (s : String) : subGo par k s s = true := by
  cases k <;> simp [subGo]

theorem subGo_step {par : String → Option String} {k : Nat} {s q t : String} (hp : par s = some q) (h : subGo par k q t = true) :
    subGo par (k + 1) s t = true := by simp [subGo, hp, h]

theorem subGo_cases {par : String → Option String} {k : Nat} {s t : String} (h : subGo par k s t = true) :
    s = t ∨ ∃ l q, k = l + 1 ∧ par s = some q ∧ subGo par l q t = true := by
  cases k with
  | zero => exact .inl (by simpa [subGo] using h)
  | succ k =>
    simp only [subGo, Bool.or_eq_true, beq_iff_eq] at h
    rcases h with h | h
    · exact .inl h
    · cases hp : par s with
      | none => simp [hp] at h
      | some q => exact .inr ⟨k, q, rfl, rfl, by simpa [hp] using h⟩

theorem subGo_trans {par : String → Option String} {t u : String} {l : Nat} (h2 : subGo par l t u = true) : ∀ (k : Nat) (s : String),
    subGo par k s t = true → ∃ m, subGo par m s u = true := by
  intro k
  induction k with
  | zero =>
    intro s h
    rcases subGo_cases h with rfl | ⟨l, q, h, -⟩
    · exact ⟨_, h2⟩
    · omega
  | succ k ih =>
    intro s h
    rcases subGo_cases h with rfl | ⟨j, q, hj, hp, h⟩
    · exact ⟨_, h2⟩
    · obtain rfl : k = j := by omega
      obtain ⟨m, hm⟩ := ih q h
      exact ⟨m + 1, subGo_step hp hm⟩

theorem subGo_ranked {par : String → Option String} {r : String → Nat} (hr : ∀ s q, par s = some q → r q < r s) {t : String} :
    ∀ (k : Nat) (s : String), subGo par k s t = true → ∀ m, r s ≤ m → subGo par m s t = true := by
  intro k
  induction k with
  | zero =>
    intro s h m _
    rcases subGo_cases h with rfl | ⟨l, q, h, -⟩
    · exact subGo_refl ..
    · omega
  | succ k ih =>
    intro s h m hm
    rcases subGo_cases h with rfl | ⟨j, q, hj, hp, h⟩
    · exact subGo_refl ..
    · obtain rfl : k = j := by omega
      have := hr s q hp
      match m, hm with
      | 0, hm => omega
      | m + 1, hm => exact subGo_step hp (ih q h m (by omega))

section
variable {p : PProblem} {costFns : List String}

theorem StripsProblem.isSub_iff (S : StripsProblem p costFns) (s t : String) :
    p.lang.isSub s t = true ↔ ∃ k, subGo p.lang.parentOf k s t = true := by
  refine ⟨fun h => ⟨_, h⟩, ?_⟩
  rintro ⟨k, h⟩
  obtain ⟨r, -, r2, r3⟩ := S.sorts.rank
  refine subGo_ranked (r := r) ?_ k s h _ (Nat.le_succ_of_le (r2 s))
  intro s q hq
  obtain ⟨d, hd, rfl⟩ := Option.map_eq_some_iff.1 hq
  exact r3 s d hd

theorem StripsProblem.isSub_trans (S : StripsProblem p costFns) {s t u : String} (h1 : p.lang.isSub s t = true) (h2 : p.lang.isSub t u = true) :
    p.lang.isSub s u = true := subGo_trans h2 _ _ h1 |> (S.isSub_iff s u).2

theorem PDecls.hasSort_iff (D : PDecls) (s : String) : D.hasSort s = true ↔ s ∈ "object" :: D.allSorts.map SDecl.name := by
  simp only [PDecls.hasSort, PDecls.sort, Bool.or_eq_true, beq_iff_eq, List.find?_isSome, List.mem_cons, List.mem_map]

/-- The parent of a declared object sort. -/
theorem StripsProblem.parent_sort (S : StripsProblem p costFns) {s q : String} (hs : p.lang.bounds s = none) (hq : p.lang.parentOf s = some q) :
    ObjectSort p.lang q := by
  obtain ⟨d, hd, rfl⟩ := Option.map_eq_some_iff.1 hq
  have hm : d ∈ p.lang.allSorts := List.mem_of_find?_eq_some hd
  have hb : d.bounds = none := by simpa [PDecls.bounds, hd] using hs
  refine ⟨(PDecls.hasSort_iff ..).2 ?_, S.parents d hm hb⟩
  rcases S.sorts.parent_mem d hm with h | h
  · simp only [List.mem_singleton] at h
    simp [h]
  · exact List.mem_cons_of_mem _ h

theorem StripsProblem.under_iff (S : StripsProblem p costFns) (n : Name) (s : String) :
    UnderSort (lpInputOf p costFns) n s ↔ ∃ so, (n, so) ∈ p.lang.consts ∧ p.lang.isSub so s = true := by
  constructor
  · intro h
    induction h with
    | base s h => exact ⟨s, h, subGo_refl ..⟩
    | step s q _ _ _ hq ih =>
      obtain ⟨so, h1, h2⟩ := ih
      exact ⟨so, h1, S.isSub_trans h2 ((S.isSub_iff _ _).2 ⟨1, subGo_step hq (subGo_refl ..)⟩)⟩
  · rintro ⟨so, h1, h2⟩
    obtain ⟨-, ho⟩ := S.consts _ h1
    have climb : ∀ (k : Nat) (u : String), ObjectSort p.lang u → UnderSort (lpInputOf p costFns) n u → subGo p.lang.parentOf k u s = true →
        UnderSort (lpInputOf p costFns) n s := by
      intro k
      induction k with
      | zero =>
        intro u _ hu h
        rcases subGo_cases h with rfl | ⟨l, q, h, -⟩
        · exact hu
        · omega
      | succ k ih =>
        intro u ho hu h
        rcases subGo_cases h with rfl | ⟨j, q, hj, hp, h⟩
        · exact hu
        · obtain rfl : k = j := by omega
          refine ih q (S.parent_sort ho.2 hp) (.step u q hu ((PDecls.hasSort_iff ..).1 ho.1) ?_ hp) h
          show (p.lang.bounds u).isSome = false
          rw [ho.2]; rfl
    exact climb _ so ho (.base so h1) h2

/-! ### Conditions -/

theorem strips_flatT {X : LPInput} {ps : List Var} (hc : ∀ n s, (n, s) ∈ X.consts → isAspVar (nameText n) = false) {t : Term}
    (h : StripsTerm X ps t) : FlatT (fun v => v ∈ ps) t := by
  match t, h with
  | .var v, h => exact h
  | .const n s, h => exact hc n s h

mutual
theorem strips_flat {X : LPInput} {ps : List Var} (hc : ∀ n s, (n, s) ∈ X.consts → isAspVar (nameText n) = false) :
    ∀ f, StripsCond X ps f → FlatF (fun v => v ∈ ps) f ∧ NoRebind f ∧ ClosedEx (fun _ => False) f
  | .top, _ => ⟨trivial, trivial, trivial⟩
  | .bot, _ => ⟨trivial, trivial, trivial⟩
  | .atom (.user q) ts, h => ⟨fun t ht => strips_flatT hc (h t ht), trivial, trivial⟩
  | .atom (.cmp c) ts, h => ⟨fun t ht => strips_flatT hc (h.2.2 t ht), trivial, trivial⟩
  | .comp k .not fs, h => strips_flats hc fs h.2
  | .comp k .and fs, h => strips_flats hc fs h
  | .comp k .or fs, h => strips_flats hc fs h
  | .quant _ _ _, h => by simp [StripsCond] at h
theorem strips_flats {X : LPInput} {ps : List Var} (hc : ∀ n s, (n, s) ∈ X.consts → isAspVar (nameText n) = false) :
    ∀ fs, StripsConds X ps fs → FlatFs (fun v => v ∈ ps) fs ∧ NoRebinds fs ∧ ClosedExs (fun _ => False) fs
  | [], _ => ⟨trivial, trivial, trivial⟩
  | f :: fs, h =>
    have h1 := strips_flat hc f h.1
    have h2 := strips_flats hc fs h.2
    ⟨⟨h1.1, h2.1⟩, ⟨h1.2.1, h2.2.1⟩, ⟨h1.2.2, h2.2.2⟩⟩
end

theorem strips_condOK {X : LPInput} {ps : List Var} (hc : ∀ n s, (n, s) ∈ X.consts → isAspVar (nameText n) = false) {f : Formula}
    (h : StripsCond X ps f) : CondOK (fun v => v ∈ ps) ps f :=
  have h1 := strips_flat hc f h
  ⟨h1.1, h1.2.1, fun _ hv => flat_free_V h1.1 hv⟩

/-! ### The problem that the compiler reads -/

theorem StripsProblem.notVar (S : StripsProblem p costFns) (n : Name) (s : String) (h : (n, s) ∈ (lpInputOf p costFns).consts) :
    isAspVar (nameText n) = false := by
  obtain ⟨⟨t, rfl, ht⟩, -⟩ := S.consts _ h
  exact ht.notVar

theorem StripsProblem.mem_init (S : StripsProblem p costFns) (q : String) (ts : List Term) :
    (q, ts) ∈ (lpInputOf p costFns).initAtoms ↔ ∃ pt, p.init.holds p.lang.mlang q pt = true ∧ ts = pt.map Const.toTerm := by
  obtain ⟨ops, ho⟩ := S.init
  have htidy := (Tidy.empty p.lang.mlang).run ops
  rw [← ho] at htidy
  simp only [lpInputOf, List.mem_filterMap]
  constructor
  · rintro ⟨⟨r, pt, _ | v⟩, h1, h2⟩
    · cases h2
      exact ⟨pt, (mem_rawAtoms_pred htidy _ _).1 h1, rfl⟩
    · cases h2
  · rintro ⟨pt, h1, rfl⟩
    exact ⟨(q, pt, none), (mem_rawAtoms_pred htidy _ _).2 h1, rfl⟩

theorem StripsProblem.goal_cond (S : StripsProblem p costFns) : StripsCond (lpInputOf p costFns) [] (lpInputOf p costFns).goal := by
  obtain ⟨g, h1, h2⟩ := S.goal
  show StripsCond _ _ (p.goal.getD .top)
  rw [h1]
  exact h2

theorem StripsProblem.mem_actions {n : String} {a : Schema} (h : (n, a) ∈ (lpInputOf p costFns).actions) :
    ∃ b ∈ p.actions, n = b.name ∧ a = ⟨b.params, b.pre, b.effs⟩ := by
  obtain ⟨b, hb, e⟩ := List.mem_map.1 h
  cases e
  exact ⟨b, hb, rfl, rfl⟩

theorem ObjectSort.listed {s : String} (h : ObjectSort p.lang s) :
    s ∈ (lpInputOf p costFns).sorts ∧ (lpInputOf p costFns).interval s = false := by
  refine ⟨(PDecls.hasSort_iff ..).1 h.1, ?_⟩
  show (p.lang.bounds s).isSome = false
  rw [h.2]; rfl

theorem StripsProblem.wellFormed (S : StripsProblem p costFns) : LPWellFormed (lpInputOf p costFns) := by
  refine ⟨?_, ?_, ?_, ?_, ?_, ?_⟩
  · intro n s h
    obtain ⟨⟨t, rfl, ht⟩, -⟩ := S.consts _ h
    exact ⟨t, rfl, ht.uncap, ht.notVar⟩
  · intro s cs h c hc
    simp only [lpInputOf, PDecls.listDomain] at h
    split at h
    · simp only [Except.ok.injEq] at h
      subst h
      obtain ⟨d, -, rfl⟩ := List.mem_map.1 hc
      exact ⟨_, _, rfl⟩
    · split at h
      · cases h
      · simp only [Except.ok.injEq] at h
        subst h
        obtain ⟨d, -, rfl⟩ := List.mem_map.1 hc
        exact ⟨_, _, rfl⟩
  · intro s _ hi
    have hb : p.lang.bounds s = none := by simpa [lpInputOf] using hi
    refine ⟨_, by simp only [lpInputOf, PDecls.listDomain, hb]; rfl, fun n => ?_⟩
    rw [S.under_iff]
    constructor
    · rintro ⟨so, h⟩
      obtain ⟨c, hc, e⟩ := List.mem_map.1 h
      cases e
      obtain ⟨h1, h2⟩ := List.mem_filter.1 hc
      exact ⟨c.2, h1, h2⟩
    · rintro ⟨so, h1, h2⟩
      exact ⟨so, List.mem_map.2 ⟨(n, so), List.mem_filter.2 ⟨h1, h2⟩, rfl⟩⟩
  · intro q ts h t ht
    obtain ⟨pt, h1, rfl⟩ := (S.mem_init q ts).1 h
    obtain ⟨c, hc, rfl⟩ := List.mem_map.1 ht
    exact ⟨_, _, rfl, S.notVar _ _ ((S.facts q pt h1).2 c hc)⟩
  · intro n a h
    obtain ⟨b, hb, rfl, rfl⟩ := StripsProblem.mem_actions h
    obtain ⟨h1, h2⟩ := S.params b hb
    refine ⟨fun v => v ∈ b.params, ⟨?_, ?_, ?_⟩, fun _ h => h, strips_condOK S.notVar (S.pre b hb), ?_⟩
    · intro v hv
      obtain ⟨⟨x, hx, hl⟩, -⟩ := h2 v hv
      obtain ⟨y, g1, g2, -⟩ := hl.varName
      exact ⟨y, by rw [hx, g1], g2⟩
    · intro v w hv hw h
      obtain ⟨⟨x, hx, hl⟩, -⟩ := h2 v hv
      obtain ⟨⟨y, hy, hl'⟩, -⟩ := h2 w hw
      rw [hx, hy] at h
      have := varName_inj hl hl' h
      exact List.inj_on_of_nodup_map h1 hv hw (by rw [hx, hy, this])
    · intro v hv
      exact (h2 v hv).2.listed
    · intro e he
      obtain ⟨q, ts, g1, rfl | ⟨rfl, -⟩⟩ := S.effs b hb e he
      · trivial
      · refine ⟨⟨trivial, trivial, fun v hv => by simp [FreeF] at hv⟩, fun t ht => strips_flatT S.notVar (g1 t ht), fun v hv => g1 _ hv⟩
  · exact ⟨fun v => v ∈ [], ⟨by simp, by simp, by simp⟩, strips_condOK S.notVar S.goal_cond⟩

theorem StripsProblem.tight (S : StripsProblem p costFns) : LPTight (lpInputOf p costFns) false := by
  refine ⟨?_, ?_, ⟨(strips_flat S.notVar _ S.goal_cond).2.2, by simp⟩⟩
  · have : (lpInputOf p costFns).actions.map Prod.fst = p.actions.map PAction.name := by simp [lpInputOf]
    rw [this]
    exact S.names
  · intro n a h
    obtain ⟨b, hb, rfl, rfl⟩ := StripsProblem.mem_actions h
    refine ⟨⟨(strips_flat S.notVar _ (S.pre b hb)).2.2, by simp⟩, ?_⟩
    intro e he
    obtain ⟨q, ts, g1, rfl | ⟨rfl, -⟩⟩ := S.effs b hb e he
    · trivial
    · exact ⟨trivial, by simp⟩

theorem StripsProblem.task (S : StripsProblem p costFns) :
    StripsTask (lpInputOf p costFns) p.lang.mlang p.lang.constTable p.init p.actionTable := by
  refine ⟨?_, ?_, ?_, S.mem_init, fun q pt h => (S.facts q pt h).2, ?_, ?_, ?_, ?_, S.goal_cond⟩
  · intro n c
    simp only [PDecls.constTable, Option.map_eq_some_iff]
    constructor
    · rintro ⟨s, h, rfl⟩
      exact ⟨rfl, dlookup_some h⟩
    · rintro ⟨rfl, h⟩
      exact ⟨c.sort, dlookup_mem_nodup S.distinct h, rfl⟩
  · intro n s s' t h1 h2 h3
    obtain ⟨so, h4, h5⟩ := (S.under_iff n s').1 h2
    have : so = s := by
      have e1 := dlookup_mem_nodup S.distinct h4
      have e2 := dlookup_mem_nodup S.distinct (show (n, s) ∈ p.lang.consts from h1)
      rw [e1] at e2
      exact Option.some.inj e2
    subst this
    exact S.isSub_trans h5 h3
  · simp [lpInputOf, PProblem.actionTable]
  all_goals
    intro x hx
    obtain ⟨a, ha, rfl⟩ := List.mem_map.1 hx
  · exact (List.Nodup.of_map _ (S.params a ha).1)
  · exact fun v hv => ((S.params a ha).2 v hv).2.listed
  · exact S.pre a ha
  · exact S.effs a ha

theorem StripsProblem.printed (S : StripsProblem p costFns) : PrintedApart (lpInputOf p costFns) p.lang.mlang p.init p.actionTable Legible
    (fun c => (c.name, c.sort) ∈ p.lang.consts) (fun c => (∃ i, c.name = .int i) ∧ Legible c.sort) := by
  have hstr : ∀ c : Const, (c.name, c.sort) ∈ p.lang.consts → ∃ n, c.name = .str n ∧ LowerName n := fun c h => (S.consts _ h).1
  refine ⟨⟨fun _ h => h, ?_, ?_, ?_, ?_⟩, ⟨S.facts, fun f pt v h => (S.values f pt v h).2⟩, ?_, fun _ _ h => h⟩
  · intro c hc
    obtain ⟨n, h1, h2⟩ := hstr c hc
    rw [h1]
    exact h2.legible
  · rintro c ⟨⟨i, hi⟩, h⟩
    rw [hi]
    exact ⟨intText_legible i, h⟩
  · intro c hc d hd h
    obtain ⟨n, h1, -⟩ := hstr c hc
    obtain ⟨m, h2, -⟩ := hstr d hd
    have e : n = m := by simpa [h1, h2, Name.render] using h
    have e1 := dlookup_mem_nodup S.distinct hc
    have e2 := dlookup_mem_nodup S.distinct hd
    have hn : c.name = d.name := by rw [h1, h2, e]
    rw [hn, e2] at e1
    have hs := Option.some.inj e1
    cases c; cases d
    simp_all
  · rintro c ⟨⟨i, hi⟩, -⟩ d ⟨⟨j, hj⟩, -⟩ h hs
    have e : i = j := intText_inj (by simpa [hi, hj, Name.render] using h)
    cases c; cases d
    simp_all
  · intro x hx q ts h
    obtain ⟨a, ha, rfl⟩ := List.mem_map.1 hx
    exact S.adds a ha q ts h

/-- C119: the objects of a sort are the declared objects whose sort is the sort or a descendant of it. -/
theorem C119_objects (S : StripsProblem p costFns) (s : String) (h : ObjectSort p.lang s) :
    ∃ cs, p.lang.listDomain s = .ok cs ∧ ∀ t, t ∈ cs ↔ ∃ n so, t = .const n so ∧ (n, so) ∈ p.lang.consts ∧
      Relation.ReflTransGen (fun a b => ∃ d ∈ p.lang.allSorts, d.name = a ∧ d.parent = b) so s := by
  refine ⟨_, by simp only [PDecls.listDomain, h.2]; rfl, fun t => ?_⟩
  have hstep : ∀ a b, p.lang.parentOf a = some b ↔ ∃ d ∈ p.lang.allSorts, d.name = a ∧ d.parent = b := by
    intro a b
    constructor
    · intro h
      obtain ⟨d, hd, rfl⟩ := Option.map_eq_some_iff.1 h
      exact ⟨d, List.mem_of_find?_eq_some hd, by simpa using List.find?_some hd, rfl⟩
    · rintro ⟨d, hd, rfl, rfl⟩
      have hn : ∀ {ds : List SDecl} {seen}, SortsFrom seen ds → (∀ e ∈ ds, e.name ∉ seen) ∧ ∀ d ∈ ds, ds.find? (fun e => e.name == d.name) = some d := by
        intro ds
        induction ds with
        | nil => exact fun _ => ⟨by simp, by simp⟩
        | cons e ds ih =>
          intro seen h
          obtain ⟨h1, h2⟩ := ih h.2.2
          refine ⟨?_, ?_⟩
          · intro x hx
            rcases List.mem_cons.1 hx with rfl | hx
            · exact h.1
            · exact fun hs => h1 x hx (by simp [hs])
          · intro x hx
            rw [List.find?_cons]
            rcases List.mem_cons.1 hx with rfl | hx
            · simp
            · have : (e.name == x.name) = false := by
                have := h1 x hx
                simp only [List.mem_cons, not_or] at this
                simpa using fun e' => this.1 e'.symm
              rw [this]
              exact h2 x hx
      exact Option.map_eq_some_iff.2 ⟨d, (hn S.sorts).2 d hd, rfl⟩
  have hup : ∀ a b, p.lang.isSub a b = true ↔ Relation.ReflTransGen (fun a b => ∃ d ∈ p.lang.allSorts, d.name = a ∧ d.parent = b) a b := by
    intro a b
    rw [S.isSub_iff]
    constructor
    · rintro ⟨k, hk⟩
      induction k generalizing a with
      | zero =>
        rcases subGo_cases hk with rfl | ⟨l, q, h, -⟩
        · exact .refl
        · omega
      | succ k ih =>
        rcases subGo_cases hk with rfl | ⟨l, q, h, hp, hk⟩
        · exact .refl
        · obtain rfl : k = l := by omega
          exact .head ((hstep _ _).1 hp) (ih q hk)
    · intro hr
      induction hr using Relation.ReflTransGen.head_induction_on with
      | refl => exact ⟨0, subGo_refl ..⟩
      | head h1 _ ih =>
        obtain ⟨k, hk⟩ := ih
        exact ⟨k + 1, subGo_step ((hstep _ _).2 h1) hk⟩
  simp only [List.mem_map, List.mem_filter, hup]
  constructor
  · rintro ⟨c, ⟨h1, h2⟩, rfl⟩
    exact ⟨_, _, rfl, h1, h2⟩
  · rintro ⟨n, so, rfl, h1, h2⟩
    exact ⟨(n, so), ⟨h1, h2⟩, rfl⟩

/-- C119: the domain of an interval that was declared by the user is the list of its numbers, unless its bounds are more than 9999 apart; then it
cannot be listed, and neither can the builtin sorts of numbers. -/
theorem C119_intervals (D : PDecls) (s : String) (l u : Int) (h : D.bounds s = some (l, u)) :
    (s ∉ ["Real", "Integer", "Natural"] → u ≤ l + 9999 → ∃ cs, D.listDomain s = .ok cs ∧ cs.Nodup ∧
      ∀ t, t ∈ cs ↔ ∃ i, l ≤ i ∧ i ≤ u ∧ t = .const (.int i) s) ∧
    (s ∈ ["Real", "Integer", "Natural"] ∨ l + 9999 < u → ∀ cs, D.listDomain s ≠ .ok cs) := by
  have e : builtinSorts.map SDecl.name = ["Real", "Integer", "Natural"] := rfl
  refine ⟨fun h1 h2 => ?_, fun h1 cs => ?_⟩
  · have hc : ¬ (s ∈ builtinSorts.map SDecl.name ∨ 9999 < u - l) := by
      rw [e]
      rintro (h | h)
      · exact h1 h
      · omega
    refine ⟨_, by simp only [PDecls.listDomain, h, if_neg hc]; rfl, ?_, fun t => ?_⟩
    · refine List.Nodup.map ?_ List.nodup_range
      intro a b hab
      simp only [Term.const.injEq, Name.int.injEq, and_true] at hab
      omega
    · simp only [List.mem_map, List.mem_range]
      constructor
      · rintro ⟨k, hk, rfl⟩
        exact ⟨l + k, by omega, by omega, rfl⟩
      · rintro ⟨i, h3, h4, rfl⟩
        exact ⟨(i - l).toNat, by omega, by congr 2; omega⟩
  · have hc : s ∈ builtinSorts.map SDecl.name ∨ 9999 < u - l := by
      rw [e]
      exact h1.imp id (fun h => by omega)
    simp only [PDecls.listDomain, h, if_pos hc]
    nofun

/-- C119: the functions of the initial state, which the compiler refuses unless they are costs, are those that have been given a value. -/
theorem C119_functions (S : StripsProblem p costFns) (f : String) :
    f ∈ (lpInputOf p costFns).initFns ↔ ∃ pt v, p.init.value p.lang.mlang f pt = .ok v := by
  obtain ⟨ops, ho⟩ := S.init
  have htidy := (Tidy.empty p.lang.mlang).run ops
  rw [← ho] at htidy
  simp only [lpInputOf, List.mem_filterMap]
  constructor
  · rintro ⟨⟨r, pt, _ | v⟩, h1, h2⟩
    · cases h2
    · cases h2
      exact ⟨pt, v, (mem_rawAtoms_fun htidy _ _ _).1 h1⟩
  · rintro ⟨pt, v, h⟩
    exact ⟨(f, pt, some v), (mem_rawAtoms_fun htidy _ _ _).2 h, rfl⟩

/-! ### The compiler succeeds -/

theorem lpTerms_vars {vs : List Var} (h : ∀ v ∈ vs, ∃ x, makeVarName v.sym = .ok x) :
    (∃ xs, lpTerms (vs.map .var) = .ok xs) ∧ ∃ tys, lpTypes (vs.map .var) = .ok tys := by
  induction vs with
  | nil => exact ⟨⟨_, rfl⟩, ⟨_, rfl⟩⟩
  | cons v vs ih =>
    obtain ⟨x, hx⟩ := h v (by simp)
    obtain ⟨⟨xs, h1⟩, ⟨tys, h2⟩⟩ := ih fun w hw => h w (by simp [hw])
    exact ⟨⟨x :: xs, by simp only [List.map_cons, lpTerms, lpTerm, hx, h1]⟩, ⟨.pred (.type v.sort) [x] :: tys, by simp only [List.map_cons, lpTypes, lpType, hx, h2]⟩⟩

theorem lpTerms_strips {X : LPInput} {ps : List Var} (hps : ∀ v ∈ ps, ∃ x, makeVarName v.sym = .ok x) : ∀ {ts : List Term},
    (∀ t ∈ ts, StripsTerm X ps t) → ∃ xs, lpTerms ts = .ok xs ∧ xs.length = ts.length
  | [], _ => ⟨[], rfl, rfl⟩
  | t :: ts, h => by
    obtain ⟨xs, h1, h2⟩ := lpTerms_strips hps (ts := ts) fun u hu => h u (by simp [hu])
    have ht := h t (by simp)
    match t, ht with
    | .var v, ht =>
      obtain ⟨x, hx⟩ := hps v ht
      exact ⟨x :: xs, by simp only [lpTerms, lpTerm, hx, h1], by simp [h2]⟩
    | .const n s, ht => exact ⟨nameText n :: xs, by simp only [lpTerms, lpTerm, h1], by simp [h2]⟩

mutual
theorem strips_qe {X : LPInput} {ps : List Var} (r : Formula → Except Err Formula) (dom : Domains) (mode : QEMode) :
    ∀ f, StripsCond X ps f → ∃ g, qeWith r dom mode f = .ok g ∧ StripsCond X ps g ∧ (NoFalse f → NoFalse g)
  | .top, _ => ⟨.top, rfl, trivial, fun h => h⟩
  | .bot, _ => ⟨.bot, rfl, trivial, fun h => h⟩
  | .atom q ts, h => ⟨.atom q ts, rfl, h, fun h => h⟩
  | .comp k .not fs, h => by
    obtain ⟨gs, h1, h2, h3, h4⟩ := strips_qes r dom mode fs h.2
    exact ⟨.comp .tuple .not gs, by simp only [qeWith, h1], ⟨h3.trans h.1, h2⟩, h4⟩
  | .comp k .and fs, h => by
    obtain ⟨gs, h1, h2, h3, h4⟩ := strips_qes r dom mode fs h
    exact ⟨.comp .tuple .and gs, by simp only [qeWith, h1], h2, h4⟩
  | .comp k .or fs, h => by
    obtain ⟨gs, h1, h2, h3, h4⟩ := strips_qes r dom mode fs h
    exact ⟨.comp .tuple .or gs, by simp only [qeWith, h1], h2, h4⟩
  | .quant _ _ _, h => by simp [StripsCond] at h
theorem strips_qes {X : LPInput} {ps : List Var} (r : Formula → Except Err Formula) (dom : Domains) (mode : QEMode) :
    ∀ fs, StripsConds X ps fs → ∃ gs, qesWith r dom mode fs = .ok gs ∧ StripsConds X ps gs ∧ gs.length = fs.length ∧ (NoFalses fs → NoFalses gs)
  | [], _ => ⟨[], rfl, trivial, rfl, fun h => h⟩
  | f :: fs, h => by
    obtain ⟨g, h1, h2, h3⟩ := strips_qe r dom mode f h.1
    obtain ⟨gs, g1, g2, g3, g4⟩ := strips_qes r dom mode fs h.2
    exact ⟨g :: gs, by simp only [qesWith, h1, g1], ⟨h2, g2⟩, by simp [g3], fun hn => ⟨h3 hn.1, g4 hn.2⟩⟩
end

mutual
theorem lpFormula_ok {X : LPInput} {ps : List Var} {ord : List Var → List Var} (hps : ∀ v ∈ ps, ∃ x, makeVarName v.sym = .ok x)
    (hord : ∀ l, (ord l).Perm l) (hc : ∀ n s, (n, s) ∈ X.consts → isAspVar (nameText n) = false) :
    ∀ f, StripsCond X ps f → NoFalse f → ∀ st, ∃ b st', lpFormula ord false st f = .ok (b, st')
  | .top, _, _, st => ⟨_, _, rfl⟩
  | .bot, _, h, _ => by simp [NoFalse] at h
  | .atom (.user q) ts, h, _, st => by
    obtain ⟨xs, h1, -⟩ := lpTerms_strips hps h
    exact ⟨[.pred (.atom q) xs], st, by simp only [lpFormula, lpAtom, h1]⟩
  | .atom (.cmp c) ts, h, _, st => by
    obtain ⟨xs, h1, h2⟩ := lpTerms_strips hps h.2.2
    match xs, h2.trans h.2.1 with
    | [a, b], _ => exact ⟨[.cmp c a b], st, by simp only [lpFormula, lpAtom, h1]⟩
  | .comp k .not fs, _, _, st => ⟨[.taut], st, by simp only [lpFormula, Bool.false_eq_true, if_false]⟩
  | .comp k .and fs, h, hn, st => by
    simpa only [lpFormula] using lpConj_ok hps hord hc fs h hn st
  | .comp k .or fs, h, hn, st => by
    have hk := strips_flat hc (.comp k .or fs) h
    obtain ⟨s', h1, _⟩ := fvF_spec (.comp k .or fs) (flatF_noIte hk.1) hk.2.1 ⟨[], []⟩ (by simp) (by simp) (by simp) (flatF_varBinders hk.1)
    have hv : freeVariables (.comp k .or fs) = .ok s'.free := by simp only [freeVariables, h1]
    have hin : ∀ v ∈ ord s'.free, v ∈ ps := fun v hv' => flat_free_V hk.1 ((freeVariables_flat hk.1 hk.2.1 hv v).1 ((hord _).mem_iff.1 hv'))
    obtain ⟨⟨xs, h2⟩, ⟨tys, h3⟩⟩ := lpTerms_vars fun v hv => hps v (hin v hv)
    obtain ⟨bs, st', h4⟩ := lpDisj_ok hps hord hc fs h hn ⟨st.count + 1, st.rules⟩
    simp only [lpFormula, hv, h2, h3, h4]
    exact ⟨_, _, rfl⟩
  | .quant _ _ _, h, _, _ => by simp [StripsCond] at h
theorem lpConj_ok {X : LPInput} {ps : List Var} {ord : List Var → List Var} (hps : ∀ v ∈ ps, ∃ x, makeVarName v.sym = .ok x)
    (hord : ∀ l, (ord l).Perm l) (hc : ∀ n s, (n, s) ∈ X.consts → isAspVar (nameText n) = false) :
    ∀ fs, StripsConds X ps fs → NoFalses fs → ∀ st, ∃ b st', lpConj ord false st fs = .ok (b, st')
  | [], _, _, st => ⟨[], st, rfl⟩
  | f :: fs, h, hn, st => by
    obtain ⟨b, st1, h1⟩ := lpFormula_ok hps hord hc f h.1 hn.1 st
    obtain ⟨bs, st2, h2⟩ := lpConj_ok hps hord hc fs h.2 hn.2 st1
    exact ⟨b ++ bs, st2, by simp only [lpConj, h1, h2]⟩
theorem lpDisj_ok {X : LPInput} {ps : List Var} {ord : List Var → List Var} (hps : ∀ v ∈ ps, ∃ x, makeVarName v.sym = .ok x)
    (hord : ∀ l, (ord l).Perm l) (hc : ∀ n s, (n, s) ∈ X.consts → isAspVar (nameText n) = false) :
    ∀ fs, StripsConds X ps fs → NoFalses fs → ∀ st, ∃ b st', lpDisj ord false st fs = .ok (b, st')
  | [], _, _, st => ⟨[], st, rfl⟩
  | f :: fs, h, hn, st => by
    obtain ⟨b, st1, h1⟩ := lpFormula_ok hps hord hc f h.1 hn.1 st
    obtain ⟨bs, st2, h2⟩ := lpDisj_ok hps hord hc fs h.2 hn.2 st1
    exact ⟨b :: bs, st2, by simp only [lpDisj, h1, h2]⟩
end

theorem lpCondition_ok {X : LPInput} {ps : List Var} {ord : List Var → List Var} (hps : ∀ v ∈ ps, ∃ x, makeVarName v.sym = .ok x)
    (hord : ∀ l, (ord l).Perm l) (hc : ∀ n s, (n, s) ∈ X.consts → isAspVar (nameText n) = false) (f : Formula) (h : StripsCond X ps f)
    (hn : NoFalse f) (st : LPSt) : ∃ b st', lpCondition X.dom ord false st f = .ok (b, st') := by
  obtain ⟨g, h1, h2, h3⟩ := strips_qe (removeQuantifiers X.dom .forall) X.dom .forall f h
  rw [← removeQuantifiers_eq] at h1
  simp only [lpCondition, h1]
  exact lpFormula_ok hps hord hc g h2 (h3 hn) st

theorem lpConsts_ok (cs : List (Name × String)) (h : ∀ c ∈ cs, ∃ n, c.1 = .str n ∧ LowerName n) : ∀ st, ∃ st', lpConsts st cs = .ok st' := by
  induction cs with
  | nil => exact fun st => ⟨st, rfl⟩
  | cons c cs ih =>
    obtain ⟨n, s⟩ := c
    obtain ⟨t, rfl, ht⟩ := h (n, s) (by simp)
    intro st
    obtain ⟨st', h1⟩ := ih (fun c hc => h c (by simp [hc])) (st.add ⟨.pred (.type s) [t], []⟩)
    exact ⟨st', by simp only [lpConsts, lpType, ht.uncap, h1]⟩

theorem lpSorts_ok (X : LPInput) (hd : ∀ s, X.interval s = false → ∃ cs, X.dom s = .ok cs) (ss : List String) : ∀ st, ∃ st', lpSorts X st ss = .ok st' := by
  induction ss with
  | nil => exact fun st => ⟨st, rfl⟩
  | cons s ss ih =>
    intro st
    simp only [lpSorts]
    split
    · exact ih st
    · rename_i hi
      obtain ⟨cs, hcs⟩ := hd s (by simpa using hi)
      cases hp : X.parent s with
      | none => exact ih st
      | some q =>
        cases cs with
        | nil => simp only [hcs]; exact ih st
        | cons c cs => simp only [hcs]; exact ih _

theorem lpInitAtoms_ok {X : LPInput} (as : List (String × List Term)) (h : ∀ a ∈ as, ∀ t ∈ a.2, StripsTerm X [] t) :
    ∀ st, ∃ st', lpInitAtoms st as = .ok st' := by
  induction as with
  | nil => exact fun st => ⟨st, rfl⟩
  | cons a as ih =>
    obtain ⟨q, ts⟩ := a
    intro st
    obtain ⟨xs, h1, -⟩ := lpTerms_strips (ps := []) (by simp) (h (q, ts) (by simp))
    obtain ⟨st', h2⟩ := ih (fun a ha => h a (by simp [ha])) (st.add ⟨.pred (.atom q) xs, []⟩)
    exact ⟨st', by simp only [lpInitAtoms, lpAtom, h1, h2]⟩

theorem lpExpanded_ok {X : LPInput} {L : MLang} {ps : List Var} {ord : List Var → List Var} (hps : ∀ v ∈ ps, ∃ x, makeVarName v.sym = .ok x)
    (pre : List LPLit) (es : List Effect) (h : ∀ e ∈ es, StripsEff X L ps e) : ∀ st, ∃ st', lpExpanded X.dom ord false pre st es = .ok st' := by
  have htop : ∀ st, lpCondition X.dom ord false st .top = .ok ([], st) := by
    intro st
    have : removeQuantifiers X.dom .forall .top = .ok .top := by rw [removeQuantifiers_eq]; rfl
    simp only [lpCondition, this, lpFormula]
  induction es with
  | nil => exact fun st => ⟨st, rfl⟩
  | cons e es ih =>
    intro st
    have ih := ih fun e he => h e (by simp [he])
    obtain ⟨q, ts, g1, rfl | ⟨rfl, -⟩⟩ := h e (by simp)
    · obtain ⟨st', h2⟩ := ih st
      exact ⟨st', by simp only [lpExpanded, expandUniversal, lpEffects, lpEffect, h2]⟩
    · obtain ⟨xs, h1, -⟩ := lpTerms_strips hps g1
      obtain ⟨st', h2⟩ := ih (st.add ⟨.pred (.atom q) xs, pre ++ []⟩)
      exact ⟨st', by simp only [lpExpanded, expandUniversal, lpEffects, lpEffect, lpAtom, h1, htop, h2]⟩

theorem lpActions_ok (dom : Domains) (act : LPSt → String → Schema → Except Err LPSt) (as : List (String × Schema))
    (h1 : ∀ x ∈ as, ∀ v ∈ x.2.params, ∃ cs, dom v.sort = .ok cs) (h2 : ∀ x ∈ as, ∀ st, ∃ st', act st x.1 x.2 = .ok st') :
    ∀ st, ∃ st', lpActions dom act st as = .ok st' := by
  have hall : ∀ vs : List Var, (∀ v ∈ vs, ∃ cs, dom v.sort = .ok cs) → ∃ b, allInhabited dom vs = .ok b := by
    intro vs
    induction vs with
    | nil => exact fun _ => ⟨true, rfl⟩
    | cons v vs ih =>
      intro h
      obtain ⟨cs, hcs⟩ := h v (by simp)
      cases cs with
      | nil => exact ⟨false, by simp only [allInhabited, hcs]⟩
      | cons c cs =>
        obtain ⟨b, hb⟩ := ih fun w hw => h w (by simp [hw])
        exact ⟨b, by simp only [allInhabited, hcs, hb]⟩
  induction as with
  | nil => exact fun st => ⟨st, rfl⟩
  | cons x as ih =>
    obtain ⟨n, a⟩ := x
    intro st
    have ih := ih (fun x hx => h1 x (by simp [hx])) (fun x hx => h2 x (by simp [hx]))
    obtain ⟨b, hb⟩ := hall a.params (h1 (n, a) (by simp))
    cases b with
    | false => simpa only [lpActions, hb] using ih st
    | true =>
      obtain ⟨st1, hs⟩ := h2 (n, a) (by simp) st
      simpa only [lpActions, hb, hs] using ih st1

/-- C119: the compiler to logic programs accepts the problem. -/
theorem C119_compiles (S : StripsProblem p costFns) (hpre : ∀ a ∈ p.actions, NoFalse a.pre) (hgoal : ∀ g, p.goal = some g → NoFalse g)
    (ord : List Var → List Var) (hord : ∀ l, (ord l).Perm l) : ∃ st, createLP (lpInputOf p costFns) ord true false = .ok st := by
  have hdom : ∀ s, (lpInputOf p costFns).interval s = false → ∃ cs, (lpInputOf p costFns).dom s = .ok cs := by
    intro s hi
    have hb : p.lang.bounds s = none := by simpa [lpInputOf] using hi
    exact ⟨_, by simp only [lpInputOf, PDecls.listDomain, hb]; rfl⟩
  have hvar : ∀ a ∈ p.actions, ∀ v ∈ a.params, ∃ x, makeVarName v.sym = .ok x := by
    intro a ha v hv
    obtain ⟨⟨x, hx, hl⟩, -⟩ := (S.params a ha).2 v hv
    obtain ⟨y, g1, -⟩ := hl.varName
    exact ⟨y, by rw [hx, g1]⟩
  obtain ⟨ops, ho⟩ := S.init
  have htidy := (Tidy.empty p.lang.mlang).run ops
  rw [← ho] at htidy
  obtain ⟨st1, h1⟩ := lpConsts_ok (lpInputOf p costFns).consts (fun c hc => (S.consts c hc).1) ⟨0, []⟩
  obtain ⟨st2, h2⟩ := lpSorts_ok _ hdom (lpInputOf p costFns).sorts st1
  obtain ⟨st3, h3⟩ := lpInitAtoms_ok (X := lpInputOf p costFns) (lpInputOf p costFns).initAtoms (by
    rintro ⟨q, ts⟩ ha t ht
    obtain ⟨pt, g1, rfl⟩ := (S.mem_init q ts).1 ha
    obtain ⟨c, hc, rfl⟩ := List.mem_map.1 ht
    exact (S.facts q pt g1).2 c hc) st2
  have hfn : (lpInputOf p costFns).initFns.any (fun f => f != "total-cost" && !(lpInputOf p costFns).costFns.contains f) = false := by
    rw [List.any_eq_false]
    intro f hf
    obtain ⟨⟨f', pt, _ | v⟩, g1, g2⟩ := List.mem_filterMap.1 hf
    · cases g2
    · cases g2
      rcases (S.values _ pt v ((mem_rawAtoms_fun htidy _ _ _).1 g1)).1 with h | h
      · simp [h]
      · simp [h, lpInputOf]
  obtain ⟨st4, h4⟩ := lpActions_ok (lpInputOf p costFns).dom (fun st n a => if true = true then lpAction (lpInputOf p costFns).dom ord false st n a
      else lpActionVO (lpInputOf p costFns).dom ord false st a) (lpInputOf p costFns).actions (by
    rintro ⟨n, a⟩ hx v hv
    obtain ⟨b, hb, rfl, rfl⟩ := StripsProblem.mem_actions hx
    exact hdom _ ((S.params b hb).2 v hv).2.listed.2) (by
    rintro ⟨n, a⟩ hx st
    obtain ⟨b, hb, rfl, rfl⟩ := StripsProblem.mem_actions hx
    obtain ⟨⟨xs, g1⟩, ⟨tys, g2⟩⟩ := lpTerms_vars (hvar b hb)
    obtain ⟨bs, st1, g3⟩ := lpCondition_ok (hvar b hb) hord S.notVar b.pre (S.pre b hb) (hpre b hb) st
    obtain ⟨st', g4⟩ := lpExpanded_ok (ord := ord) (hvar b hb) [.pred (.action b.name) xs] b.effs (S.effs b hb)
      (st1.add ⟨.pred (.action b.name) xs, tys ++ bs⟩)
    exact ⟨st', by simp only [if_true, lpAction, g1, g2, g3, g4]⟩) st3
  obtain ⟨bs, st5, h5⟩ := lpCondition_ok (X := lpInputOf p costFns) (ps := []) (ord := ord) (by simp) hord S.notVar (lpInputOf p costFns).goal S.goal_cond (by
    obtain ⟨g, hg, -⟩ := S.goal
    show NoFalse (p.goal.getD .top)
    rw [hg]
    exact hgoal g hg) st4
  exact ⟨st5.add ⟨.pred .goal [], bs⟩, by
    unfold createLP
    rw [h1]
    simp only []
    rw [h2]
    simp only []
    rw [h3]
    simp only []
    rw [hfn, if_neg (by simp)]
    simp only [if_true] at h4 ⊢
    rw [h4]
    simp only [lpGoal, h5]⟩

/-- C119: planning for the problems that the reader of PDDL makes: what the compiler reads of them (its constants, hierarchy of sorts, initial atoms,
actions and goal) is such that grounding followed by breadth-first search answers as in C117: either no plan reaches the goal, or the search stops
without an error, finds a goal exactly if a plan exists, expands every state a plan leads to, not deeper than the plan is long, and nothing else. -/
theorem C119_planning (S : StripsProblem p costFns) (R : CmpRel) (run : SolverRun) (fl : List String)
    (h : SolverRunOf (lpInputOf p costFns) R true false run) (ord : List (List AStr) → List (List AStr)) (hord : ∀ l, (ord l).Perm l)
    (S₀ : PState) (hS : Represents p.lang.mlang p.init S₀) (max : Int) (hmax : max < 0) (g : Formula) (hg : p.goal = some g) :
    (groundProblemOps run p.lang.constTable p.actionTable ord (newStrategy (lpInputOf p costFns) true fl) = .error .representation ∧
      ∀ plan s, LiftedRun (lpInputOf p costFns) R S₀ plan s → ∀ σ, ¬ Sat (stateInterp p.lang.listDomain R s) g σ) ∨
    ∃ ops, groundProblemOps run p.lang.constTable p.actionTable ord (newStrategy (lpInputOf p costFns) true fl) = .ok ops ∧
      ∃ bound, ∀ fuel, bound < fuel →
      ∃ st, bfs (textSearchModel p.lang.mlang p.lang.listDomain p.init g (ops.map (·.op))) max fuel = some (.ok (true, st)) ∧
        (0 < st.numGoals ↔ ∃ plan s σ, LiftedRun (lpInputOf p costFns) R S₀ plan s ∧ Sat (stateInterp p.lang.listDomain R s) g σ) ∧
        (∀ plan s, LiftedRun (lpInputOf p costFns) R S₀ plan s → ∃ q ∈ st.expanded, Represents p.lang.mlang q.1 s ∧ q.2 ≤ plan.length) ∧
        (∀ q ∈ st.expanded, ∃ plan s, LiftedRun (lpInputOf p costFns) R S₀ plan s ∧ plan.length = q.2 ∧ Represents p.lang.mlang q.1 s)  ∧
        (st.expanded.Pairwise fun q r => ¬ ∃ s, Represents p.lang.mlang q.1 s ∧ Represents p.lang.mlang r.1 s) := by
  obtain ⟨hist, hi⟩ := S.init
  have := C117_planning S.task S.wellFormed R false S.tight run fl h ord hord hist hi _ _ _ S.printed S₀ hS max hmax
  have e : (lpInputOf p costFns).goal = g := by
    show p.goal.getD .top = g
    rw [hg]; rfl
  rw [e] at this
  exact this

end

/-! ### Example: two files -/

def flipDomText : Text :=
  "(define(domain d)(:types block)(:predicates(p ?x)(q ?x))(:action flip :parameters(?x):precondition(p ?x):effect(and(q ?x)(not(p ?x)))))".toList
def flipInstText : Text := "(define(problem x)(:domain d)(:objects b-1 - block)(:init(p b-1))(:goal(and(q b-1)(not(p b-1)))))".toList

/-- What is read from the two files. -/
def flipProblem : PProblem where
  name := "x"
  domainName := "d"
  lang := ⟨true, false, false, [⟨"block", "object", none⟩], [(.str "b-1", "block")], [("p", ["object"]), ("q", ["object"])], []⟩
  init := { MState.empty with preds := [(["p", "object"], [[flipObj]])] }
  goal := some (.comp .list .and [.atom (.user "q") [flipObj.toTerm], neg (.atom (.user "p") [flipObj.toTerm])])
  actions := [flipAct]
  derived := []
  metric := none

set_option maxRecDepth 100000 in
theorem flipDom_tokens : lexFile false flipDomText = .ok [.lpar, .kw .kDefine, .lpar, .kw .kDomain, .name "d", .rpar, .lpar, .ckw .types,
    .name "block", .rpar, .lpar, .ckw .predicates, .lpar, .name "p", .var "?x", .rpar, .lpar, .name "q", .var "?x", .rpar, .rpar, .lpar,
    .ckw .action, .name "flip", .ckw .parameters, .lpar, .var "?x", .rpar, .ckw .precondition, .lpar, .name "p", .var "?x", .rpar,
    .ckw .effect, .lpar, .kw .kAnd, .lpar, .name "q", .var "?x", .rpar, .lpar, .kw .kNot, .lpar, .name "p", .var "?x", .rpar, .rpar, .rpar,
    .rpar, .rpar] := by decide +kernel

set_option maxRecDepth 100000 in
theorem flipInst_tokens : lexFile false flipInstText = .ok [.lpar, .kw .kDefine, .lpar, .kw .kProblem, .name "x", .rpar, .lpar, .ckw .domain,
    .name "d", .rpar, .lpar, .ckw .objects, .name "b-1", .dash, .name "block", .rpar, .lpar, .ckw .init, .lpar, .name "p", .name "b-1", .rpar,
    .rpar, .lpar, .ckw .goal, .lpar, .kw .kAnd, .lpar, .name "q", .name "b-1", .rpar, .lpar, .kw .kNot, .lpar, .name "p", .name "b-1", .rpar,
    .rpar, .rpar, .rpar, .rpar] := by decide +kernel

theorem flipDom_read : parseDomain false bareLang flipDomText = .ok ⟨"d", { flipProblem.lang with consts := [] }, [flipAct]⟩ := by
  unfold parseDomain
  rw [flipDom_tokens]
  rfl

theorem flip_read : readProblemFiles false bareLang flipDomText flipInstText = .ok flipProblem := by
  unfold readProblemFiles
  rw [flipDom_read, flipInst_tokens]
  rfl

theorem flipProblem_init : flipProblem.init = MState.empty.run flipProblem.lang.mlang flipHist := by rfl

theorem flipProblem_raw : rawAtoms flipProblem.init = [("p", [flipObj], none)] := by decide

theorem flipProblem_tidy : Tidy flipProblem.lang.mlang flipProblem.init := by
  rw [flipProblem_init]
  exact (Tidy.empty _).run flipHist

theorem lowerName_x : LowerName "x" := ⟨'x', [], rfl, rfl, by simp⟩
theorem lowerName_b1 : LowerName "b-1" := ⟨'b', ['-', '1'], by decide, rfl, by simp⟩

theorem flipProblem_strips : StripsProblem flipProblem [] where
  sorts := by simp [flipProblem, PDecls.allSorts, PDecls.numeric, SortsFrom]
  parents := by decide
  consts c hc := by
    simp only [flipProblem, List.mem_singleton] at hc
    subst hc
    exact ⟨⟨_, rfl, lowerName_b1⟩, by unfold ObjectSort; decide⟩
  distinct := by decide
  init := ⟨flipHist, flipProblem_init⟩
  facts q pt h := by
    have h := (mem_rawAtoms_pred flipProblem_tidy q pt).2 h
    rw [flipProblem_raw] at h
    simp only [List.mem_singleton, Prod.mk.injEq] at h
    obtain ⟨rfl, rfl, -⟩ := h
    exact ⟨by unfold Legible; decide, by simp [flipObj, flipProblem]⟩
  values f pt v h := by
    have h := (mem_rawAtoms_fun flipProblem_tidy f pt v).2 h
    rw [flipProblem_raw] at h
    simp at h
  names := by simp [flipProblem]
  params a ha := by
    simp only [flipProblem, List.mem_singleton] at ha
    subst ha
    refine ⟨by decide, ?_⟩
    intro v hv
    simp only [flipAct, List.mem_singleton] at hv
    subst hv
    exact ⟨⟨"x", by decide, lowerName_x⟩, by unfold ObjectSort; decide⟩
  pre a ha := by
    simp only [flipProblem, List.mem_singleton] at ha
    subst ha
    simp [flipAct, StripsCond, StripsTerm]
  effs a ha e he := by
    simp only [flipProblem, List.mem_singleton] at ha
    subst ha
    simp only [flipAct, List.mem_cons, List.not_mem_nil, or_false] at he
    rcases he with rfl | rfl
    · exact ⟨"q", _, by simp [StripsTerm, flipAct], .inr ⟨rfl, .cons (by decide) .nil⟩⟩
    · exact ⟨"p", _, by simp [StripsTerm, flipAct], .inl rfl⟩
  adds a ha q ts h := by
    simp only [flipProblem, List.mem_singleton] at ha
    subst ha
    simp only [flipAct, List.mem_cons, Effect.add.injEq, PSym.user.injEq, reduceCtorEq, List.not_mem_nil, or_false] at h
    rw [h.2.1]
    unfold Legible; decide
  goal := ⟨_, rfl, by simp [neg, StripsCond, StripsConds, StripsTerm, flipObj, Const.toTerm, lpInputOf, flipProblem]⟩

/-- The files give a STRIPS problem, and the compiler accepts it. -/
example : ∃ p, readProblemFiles false bareLang flipDomText flipInstText = .ok p ∧ StripsProblem p [] ∧
    ∃ st, createLP (lpInputOf p []) id true false = .ok st :=
  ⟨_, flip_read, flipProblem_strips, C119_compiles flipProblem_strips (by simp [flipProblem, flipAct, NoFalse])
    (by simp [flipProblem, neg, NoFalse, NoFalses]) id fun _ => .refl _⟩

theorem flipProblem_create : createLP (lpInputOf flipProblem []) id true false = .ok ⟨0, flipRules⟩ := by rfl

theorem flipProblem_run : SolverRunOf (lpInputOf flipProblem []) eqCmpRel true false (.ok (hyphenTr, flipLines)) :=
  ⟨id, ⟨0, flipRules⟩, hyphenTr, flipLines, sanitize, fun _ => .refl _, flipProblem_create, rfl, flip_prints⟩

theorem flipProblem_before : Represents flipProblem.lang.mlang flipProblem.init flipBefore := by
  intro q as
  constructor
  · rintro ⟨rfl, rfl⟩
    exact ⟨[flipObj], by decide, rfl⟩
  · rintro ⟨pt, h, rfl⟩
    have h := (mem_rawAtoms_pred flipProblem_tidy q pt).2 h
    rw [flipProblem_raw] at h
    simp only [List.mem_singleton, Prod.mk.injEq] at h
    obtain ⟨rfl, rfl, -⟩ := h
    exact ⟨rfl, rfl⟩

theorem flipProblem_plan : LiftedRun (lpInputOf flipProblem []) eqCmpRel flipBefore [("flip", ["b-1"])] flipAfter := by
  refine .cons _ flipAfter _ "flip" ⟨flipAct.params, flipAct.pre, flipAct.effs⟩ (fun _ => "b-1") [] (by simp [lpInputOf, flipProblem, flipAct]) ⟨?_, ?_⟩ ?_
    (.nil _)
  · intro v hv
    simp only [flipAct, List.mem_singleton] at hv
    subst hv
    exact ⟨[flipObj.toTerm], .str "b-1", "block", rfl, by simp [flipObj, Const.toTerm], rfl⟩
  · simp [flipAct, Sat, evalTs, evalT, stateInterp, flipBefore]
  · intro p as
    have e : evalTs (stateInterp (lpInputOf flipProblem []).dom eqCmpRel flipBefore) [.var ⟨"?x", "object"⟩] (fun _ => "b-1") = ["b-1"] := rfl
    constructor
    · rintro ⟨rfl, rfl⟩
      exact .inl ⟨_, List.mem_cons_self, e ▸ .add .top "q" _ _ rfl trivial⟩
    · rintro (⟨e', he, hc⟩ | ⟨⟨rfl, rfl⟩, hn⟩)
      · simp only [flipAct, List.mem_cons, List.not_mem_nil, or_false] at he
        rcases he with rfl | rfl
        · cases hc; exact ⟨rfl, rfl⟩
        · cases hc; contradiction
      · exact absurd ⟨_, List.mem_cons_of_mem _ List.mem_cons_self, e ▸ .del .top "p" _ _ rfl trivial⟩ hn

/-- The search on what was read from the two files finds the goal. -/
example : ∃ p g, readProblemFiles false bareLang flipDomText flipInstText = .ok p ∧ p.goal = some g ∧
    ∃ ops, groundProblemOps (.ok (hyphenTr, flipLines)) p.lang.constTable p.actionTable id (newStrategy (lpInputOf p []) true ["p", "q"]) = .ok ops ∧
    ∃ bound, ∀ fuel, bound < fuel →
      ∃ st, bfs (textSearchModel p.lang.mlang p.lang.listDomain p.init g (ops.map (·.op))) (-1) fuel = some (.ok (true, st)) ∧ 0 < st.numGoals := by
  refine ⟨flipProblem, _, flip_read, rfl, ?_⟩
  have hg : ∃ σ, Sat (stateInterp flipProblem.lang.listDomain eqCmpRel flipAfter)
      (.comp .list .and [.atom (.user "q") [flipObj.toTerm], neg (.atom (.user "p") [flipObj.toTerm])]) σ :=
    ⟨fun _ => "", by simp [neg, Sat, SatAll, evalTs, evalT, stateInterp, flipAfter, flipObj, Const.toTerm, nameText]⟩
  rcases C119_planning flipProblem_strips eqCmpRel _ ["p", "q"] flipProblem_run id (fun _ => .refl _) flipBefore flipProblem_before (-1) (by decide)
    _ rfl with ⟨-, h⟩ | ⟨ops, h, b, hb⟩
  · obtain ⟨σ, hg⟩ := hg
    exact absurd hg (h _ _ flipProblem_plan σ)
  · refine ⟨ops, h, b, fun fuel hf => ?_⟩
    obtain ⟨st, h1, h2, -⟩ := hb fuel hf
    obtain ⟨σ, hg⟩ := hg
    exact ⟨st, h1, h2.2 ⟨_, _, σ, flipProblem_plan, hg⟩⟩

/-- The hypotheses on sorts are met. -/
example : ObjectSort flipProblem.lang "object" ∧ ObjectSort flipProblem.lang "block" := by unfold ObjectSort; decide
/-- An interval with three numbers, and one that is too long. -/
example : ∃ cs, (⟨true, true, false, [⟨"size", "Integer", some (1, 3)⟩], [], [], []⟩ : PDecls).listDomain "size" = .ok cs ∧ cs.length = 3 :=
  ⟨_, rfl, rfl⟩
example : ∀ cs, (⟨true, true, false, [⟨"size", "Integer", some (0, 10000)⟩], [], [], []⟩ : PDecls).listDomain "size" ≠ .ok cs :=
  (C119_intervals _ "size" 0 10000 rfl).2 (.inr (by decide))

end Tarski

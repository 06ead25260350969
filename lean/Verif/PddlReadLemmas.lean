import Verif.PddlSpec
import Verif.PddlLexLemmas
import Verif.Semantics
import Verif.Builtins
import Verif.Props.Containers
/-! Lemmas: reading the text that the writer prints for terms and formulas. -/
namespace Tarski

mutual
/-- The term with every variable replaced by its PDDL variable. -/
def pT : Term → Term
  | .var v => .var (pvar v)
  | .const n s => .const n s
  | .app f ts => .app f (pTs ts)
  | .ite c t e => .ite c t e
def pTs : List Term → List Term
  | [] => []
  | t :: ts => pT t :: pTs ts
end

mutual
/-- The formula that is read back. -/
def pF : Formula → Formula
  | .top => .top
  | .bot => .atom (.cmp .eq) [.const (.int 0) "Integer", .const (.int 1) "Integer"]
  | .atom p ts => match p with
    | .cmp .ne => neg (.atom (.cmp .eq) (pTs ts))
    | p => .atom p (pTs ts)
  | .comp _ c fs => .comp .list c (pFs fs)
  | .quant q vs f => .quant q (pTs vs) (pF f)
def pFs : List Formula → List Formula
  | [] => []
  | f :: fs => pF f :: pFs fs
end

/-- The parser's scope consists of the PDDL variables of `sc`. -/
def ScopeIs (b : Option VBinding) (sc : List Var) : Prop :=
  match b with
  | none => sc = []
  | some b => b.variables = sc.map (fun v => ((pvar v).sym, pvar v))

theorem dlookup_map_mem {sc : List Var} (h : (sc.map (fun v => (pvar v).sym)).Nodup) {v : Var} (hv : v ∈ sc) :
    dlookup (sc.map (fun v => ((pvar v).sym, pvar v))) (pvar v).sym = some (pvar v) := by
  induction sc with
  | nil => cases hv
  | cons w sc ih =>
    simp only [List.map_cons, dlookup]
    simp only [List.map_cons, List.nodup_cons] at h
    by_cases he : (pvar w).sym = (pvar v).sym
    · rcases List.mem_cons.mp hv with rfl | hv'
      · simp
      · exact absurd (List.mem_map_of_mem (f := fun v => (pvar v).sym) hv') (he ▸ h.1)
    · rcases List.mem_cons.mp hv with rfl | hv'
      · exact absurd rfl he
      · rw [if_neg he]; exact ih h.2 hv'

theorem dlookup_map_none {sc : List Var} {n : String} (h : n ∉ sc.map (fun v => (pvar v).sym)) :
    dlookup (sc.map (fun v => ((pvar v).sym, pvar v))) n = none := by
  rw [dlookup_none]
  simpa [List.map_map] using h

theorem lowerS_ofPVar (v : Var) : lowerS (String.ofList (printVarName v.sym)) = (pvar v).sym := rfl

theorem pvar_sort (v : Var) : (pvar v).sort = v.sort := rfl

theorem readVar_ok {b : Option VBinding} {sc : List Var} (hb : ScopeIs b sc)
    (hn : (sc.map (fun v => (pvar v).sym)).Nodup) {v : Var} (hv : v ∈ sc) :
    readVar b (String.ofList (printVarName v.sym)) = .ok (.var (pvar v)) := by
  cases b with
  | none => simp only [ScopeIs] at hb; subst hb; cases hv
  | some b =>
    simp only [ScopeIs] at hb
    simp only [readVar, VBinding.get, hb, lowerS_ofPVar, dlookup_map_mem hn hv]

theorem lowerS_pname {s : String} (h : PName s) : lowerS s = s := by
  have : s.toList.map lowerC = s.toList := by
    conv_rhs => rw [← List.map_id s.toList]
    exact List.map_congr_left (fun d hd => h.2.1 d hd)
  simp [lowerS, this, String.ofList_toList]

theorem textOf_pname {s : String} (h : PName s) : TextOf s.toList (.tok (.name s)) := by
  obtain ⟨hr, _, c, cs, hs, hc, hcs⟩ := h
  have h1 := lexesTo_word hc hcs
  rw [← hs, String.ofList_toList] at h1
  have h2 : wordTok s = .name s := by simp [wordTok, hr]
  rw [h2] at h1
  exact textOf_tok h1 (by simp) (by simp)

theorem textOf_vname {s : String} (h : VName s) :
    TextOf (printVarName s) (.tok (.var (String.ofList (printVarName s)))) := by
  obtain ⟨c, cs, hs, hc, hcs⟩ := h
  have h1 := lexesTo_var hc hcs
  rw [← hs] at h1
  exact textOf_tok h1 (by simp) (by simp)

theorem textOf_int (n : Int) : TextOf (intText n) (.tok (.num (intText n))) :=
  textOf_tok (lexesTo_int n) (by simp) (by simp)

theorem head_digits (n : Nat) : ∀ ds, Nat.toDigits 10 n ≠ '-' :: ds := by
  intro ds h
  have := digits_dig n '-' (by rw [h]; simp)
  revert this; decide

theorem digitsVal_toDigits (n : Nat) : digitsVal (Nat.toDigits 10 n) = Int.ofNat n := by
  simp [digitsVal]

theorem intVal_intText (n : Int) : intVal (intText n) = n := by
  cases n with
  | ofNat n =>
    simp only [intText]
    unfold intVal
    split
    · rename_i ds h; exact absurd h (head_digits n ds)
    · exact digitsVal_toDigits n
  | negSucc n =>
    simp only [intText, intVal, digitsVal_toDigits]
    rfl

theorem parseNumber_intText (n : Int) : parseNumber (intText n) = .ok n := by
  have : (intText n).contains '.' = false := by
    simp only [List.contains_eq_mem, decide_eq_false_iff_not]
    exact dot_not_mem_int n
  simp only [parseNumber, this, Bool.false_eq_true, if_false, intVal_intText]

theorem sortOf_pT (L : RLang) : ∀ t : Term, L.sortOf (pT t) = L.sortOf t
  | .var v => rfl
  | .const _ _ => by simp [pT]
  | .app f ts => by simp [pT, RLang.sortOf]
  | .ite _ _ _ => by simp [pT]

/-- What reading an operand gives: an integer or a term. -/
def OperandOk (L : RLang) (real : String → Bool) (b : Option VBinding) (t : Term) (v : RVal) : Prop :=
  ∃ s x, printT real t = .ok s ∧ TextOf s x ∧ readT L b x = .ok v

theorem operand_num {L : RLang} {real : String → Bool} {b : Option VBinding} {s : String} {t : Term}
    (h : NumIn L real s t) : ∃ n, t = .const (.int n) s ∧ L.constOf s n = .ok (pT t) ∧ OperandOk L real b t (.num n) := by
  obtain ⟨n, rfl, hc, hr⟩ := h
  refine ⟨n, rfl, by simp [RLang.constOf, hc, pT], intText n, .tok (.num (intText n)), ?_, textOf_int n, ?_⟩
  · simp [printT, printConst, hr]
  · simp [readT, parseNumber_intText]

theorem textOf_kw (w : Text) (c : Char) (cs : Text) (k : Kw) (hw : w = c :: cs) (hc : isLetter c = true)
    (hcs : ∀ d ∈ cs, isWordChar d = true) (hk : reserved (String.ofList w) = some k) : TextOf w (.tok (.kw k)) := by
  subst hw
  have h1 := lexesTo_word hc hcs
  have h2 : wordTok (String.ofList (c :: cs)) = .kw k := by simp only [wordTok, hk]
  rw [h2] at h1
  exact textOf_tok h1 (by simp) (by simp)

theorem textOf_call2 {hd a b : Text} {x y z : SX} (h : TextOf hd x) (ha : TextOf a y) (hb : TextOf b z) :
    TextOf ('(' :: hd ++ ' ' :: joinWith [' '] [a, b] ++ [')']) (.list [x, y, z]) :=
  textOf_call h (.cons ha (.cons hb .nil))

section
variable {L : RLang} {real : String → Bool}

/-- Two operands of a builtin symbol. -/
def TwoOk (L : RLang) (real : String → Bool) (b : Option VBinding) (top : String) (ts : List Term) : Prop :=
  ∃ t u l r s1 s2 x y, ts = [t, u] ∧ printT real t = .ok s1 ∧ TextOf s1 x ∧ readT L b x = .ok l ∧
    printT real u = .ok s2 ∧ TextOf s2 y ∧ readT L b y = .ok r ∧ castPair L l r = .ok (pT t, pT u) ∧
    (L.isSub (L.sortOf (pT t)) top && L.isSub (L.sortOf (pT u)) top) = true

theorem ar_read {f : String} {c : Char} (hf : f = String.ofList [c]) (ha : arName c = .ok f)
    (hs : lexStep .idle c = .ok ([.ar c], .idle)) {b : Option VBinding} {ts : List Term}
    (harith : L.arithmetic = true) (h : TwoOk L real b "Real" ts) :
    ∃ s x, printT real (.app f ts) = .ok s ∧ TextOf s x ∧ readT L b x = .ok (.term (pT (.app f ts))) := by
  obtain ⟨t, u, l, r, s1, s2, x, y, rfl, h1, h2, h3, h4, h5, h6, h7, h8⟩ := h
  refine ⟨_, _, ?_, textOf_call2 (textOf_tok (lexesTo_one hs) (by simp) (by simp)) h2 h5, ?_⟩
  · simp [printT, printTs, h1, h4, hf]
  · simp [readT, h3, h6, ha, mkArith, harith, h7, h8, pT, pTs]

theorem funArgs_term {vs : List RVal} {ss : List String} {ts : List Term} {t : Term} {s : String}
    (hs : L.isSub (L.sortOf t) s = true) (h : funArgs L vs ss = .ok ts) :
    funArgs L (.term t :: vs) (s :: ss) = .ok (t :: ts) := by
  simp [funArgs, hs, h]

mutual
theorem term_read {b : Option VBinding} {sc : List Var} (hb : ScopeIs b sc)
    (hn : (sc.map (fun v => (pvar v).sym)).Nodup) (hvn : ∀ v ∈ sc, VName v.sym) :
    ∀ t : Term, OkT L real sc t → OperandOk L real b t (.term (pT t))
  | .var v, h => by
    simp only [OkT] at h
    refine ⟨printVarName v.sym, _, by simp [printT], textOf_vname (hvn v h), ?_⟩
    simp [readT, readVar_ok hb hn h, pT]
  | .const n srt, h => by
    cases n with
    | str s =>
      simp only [OkT] at h
      refine ⟨s.toList, _, by simp [printT, printConst], textOf_pname h.1, ?_⟩
      simp [readT, readObject, lowerS_pname h.1, h.2, pT]
    | int n => simp [OkT] at h
    | pyNone => simp [OkT] at h
  | .app f ts, h => by
    simp only [OkT] at h
    rcases h with ⟨hf, ha, h⟩ | ⟨hf, ha, h⟩ | ⟨hf, ss, c, hss, h⟩
    · have h2 := two_read hb hn hvn "Real" ts h
      simp only [List.mem_cons, List.not_mem_nil, or_false] at hf
      rcases hf with rfl | rfl | rfl | rfl
      · exact ar_read (c := '+') (by rfl) (by rfl) (by decide) ha h2
      · obtain ⟨t, u, l, r, s1, s2, x, y, rfl, h1, h2, h3, h4, h5, h6, h7, h8⟩ := h2
        refine ⟨_, _, ?_, textOf_call2 (textOf_tok lexesTo_dash (by simp) (by simp)) h2 h5, ?_⟩
        · simp [printT, printTs, h1, h4]
        · simp [readT, h3, h6, mkArith, ha, h7, h8, pT, pTs]
      · exact ar_read (c := '*') (by rfl) (by rfl) (by decide) ha h2
      · exact ar_read (c := '/') (by rfl) (by rfl) (by decide) ha h2
    · have h2 := two_read hb hn hvn "Real" ts h
      simp only [List.mem_cons, List.not_mem_nil, or_false] at hf
      rcases hf with rfl | rfl
      · obtain ⟨t, u, l, r, s1, s2, x, y, rfl, h1, h2, h3, h4, h5, h6, h7, h8⟩ := h2
        refine ⟨_, _, ?_, textOf_call2 (textOf_kw ['m','i','n'] 'm' ['i','n'] .kMin rfl (by decide) (by decide)
          (by decide)) h2 h5, ?_⟩
        · simp [printT, printTs, h1, h4]
        · simp [readT, h3, h6, mkArith, ha, h7, h8, pT, pTs]
      · obtain ⟨t, u, l, r, s1, s2, x, y, rfl, h1, h2, h3, h4, h5, h6, h7, h8⟩ := h2
        refine ⟨_, _, ?_, textOf_call2 (textOf_kw ['m','a','x'] 'm' ['a','x'] .kMax rfl (by decide) (by decide)
          (by decide)) h2 h5, ?_⟩
        · simp [printT, printTs, h1, h4]
        · simp [readT, h3, h6, mkArith, ha, h7, h8, pT, pTs]
    · obtain ⟨ws, xs, vs, h1, h2, h3, h4, h5⟩ := args_read hb hn hvn ts ss h
      refine ⟨_, _, ?_, textOf_call (textOf_pname hf) h2, ?_⟩
      · simp [printT, h1]
      · simp [readT, h3, mkUserApp, lowerS_pname hf, hss, h4, h5, pT]
  | .ite _ _ _, h => by simp [OkT] at h
theorem args_read {b : Option VBinding} {sc : List Var} (hb : ScopeIs b sc)
    (hn : (sc.map (fun v => (pvar v).sym)).Nodup) (hvn : ∀ v ∈ sc, VName v.sym) :
    ∀ (ts : List Term) (ss : List String), OkArgs L real sc ts ss →
      ∃ ws xs vs, printTs real ts = .ok ws ∧ List.Forall₂ TextOf ws xs ∧ readTs L b xs = .ok vs ∧
        ss.length = vs.length ∧ funArgs L vs ss = .ok (pTs ts)
  | [], [], _ => ⟨[], [], [], by simp [printTs], .nil, by simp [readTs], rfl, by simp [funArgs, pTs]⟩
  | t :: ts, s :: ss, h => by
    simp only [OkArgs] at h
    obtain ⟨h1, h2⟩ := h
    obtain ⟨ws, xs, vs, i1, i2, i3, i4, i5⟩ := args_read hb hn hvn ts ss h2
    rcases h1 with ⟨h1, hs⟩ | h1
    · obtain ⟨w, x, j1, j2, j3⟩ := term_read hb hn hvn t h1
      refine ⟨w :: ws, x :: xs, .term (pT t) :: vs, by simp [printTs, j1, i1], .cons j2 i2, by simp [readTs, j3, i3],
        by simp [i4], ?_⟩
      rw [← sortOf_pT] at hs
      simpa [pTs] using funArgs_term hs i5
    · obtain ⟨n, rfl, hc, w, x, j1, j2, j3⟩ := operand_num (b := b) h1
      refine ⟨w :: ws, x :: xs, .num n :: vs, by simp [printTs, j1, i1], .cons j2 i2, by simp [readTs, j3, i3],
        by simp [i4], ?_⟩
      simp [funArgs, hc, i5, pTs]
  | [], _ :: _, h => by simp [OkArgs] at h
  | _ :: _, [], h => by simp [OkArgs] at h
theorem two_read {b : Option VBinding} {sc : List Var} (hb : ScopeIs b sc)
    (hn : (sc.map (fun v => (pvar v).sym)).Nodup) (hvn : ∀ v ∈ sc, VName v.sym) (top : String) :
    ∀ ts : List Term, OkTwo L real sc top ts → TwoOk L real b top ts
  | [t, u], h => by
    simp only [OkTwo] at h
    obtain ⟨h, hs1, hs2⟩ := h
    rw [← sortOf_pT] at hs1 hs2
    have hs : (L.isSub (L.sortOf (pT t)) top && L.isSub (L.sortOf (pT u)) top) = true := by simp [hs1, hs2]
    rcases h with ⟨ht, hu⟩ | ⟨ht, hu⟩ | ⟨ht, hu⟩ | ⟨ht, hu, hi⟩
    · obtain ⟨s1, x, a1, a2, a3⟩ := term_read hb hn hvn t ht
      obtain ⟨s2, y, b1, b2, b3⟩ := term_read hb hn hvn u hu
      exact ⟨t, u, _, _, s1, s2, x, y, rfl, a1, a2, a3, b1, b2, b3, rfl, hs⟩
    · obtain ⟨s1, x, a1, a2, a3⟩ := term_read hb hn hvn t ht
      obtain ⟨n, _, hc, s2, y, b1, b2, b3⟩ := operand_num (b := b) hu
      exact ⟨t, u, _, _, s1, s2, x, y, rfl, a1, a2, a3, b1, b2, b3, by simp [castPair, sortOf_pT, hc], hs⟩
    · obtain ⟨n, _, hc, s1, x, a1, a2, a3⟩ := operand_num (b := b) ht
      obtain ⟨s2, y, b1, b2, b3⟩ := term_read hb hn hvn u hu
      exact ⟨t, u, _, _, s1, s2, x, y, rfl, a1, a2, a3, b1, b2, b3, by simp [castPair, sortOf_pT, hc], hs⟩
    · obtain ⟨n, _, hc, s1, x, a1, a2, a3⟩ := operand_num (b := b) ht
      obtain ⟨m, _, hd, s2, y, b1, b2, b3⟩ := operand_num (b := b) hu
      exact ⟨t, u, _, _, s1, s2, x, y, rfl, a1, a2, a3, b1, b2, b3, by simp [castPair, hi, hc, hd], hs⟩
  | [], h => by simp [OkTwo] at h
  | [_], h => by simp [OkTwo] at h
  | _ :: _ :: _ :: _, h => by simp [OkTwo] at h
end

theorem atom_read {b : Option VBinding} {sc : List Var} (hb : ScopeIs b sc)
    (hn : (sc.map (fun v => (pvar v).sym)).Nodup) (hvn : ∀ v ∈ sc, VName v.sym) :
    ∀ (ts : List Term) (ss : List String), OkAtom L real sc ts ss →
      ∃ ws xs vs, printTs real ts = .ok ws ∧ List.Forall₂ TextOf ws xs ∧ readTs L b xs = .ok vs ∧
        vs.length = ss.length ∧ atomArgs L vs ss = .ok (pTs ts)
  | [], [], _ => ⟨[], [], [], by simp [printTs], .nil, by simp [readTs], rfl, by simp [atomArgs, pTs]⟩
  | t :: ts, s :: ss, h => by
    simp only [OkAtom] at h
    obtain ⟨h1, hs, h2⟩ := h
    obtain ⟨ws, xs, vs, i1, i2, i3, i4, i5⟩ := atom_read hb hn hvn ts ss h2
    obtain ⟨w, x, j1, j2, j3⟩ := term_read hb hn hvn t h1
    refine ⟨w :: ws, x :: xs, .term (pT t) :: vs, by simp [printTs, j1, i1], .cons j2 i2, by simp [readTs, j3, i3],
      by simp [i4], ?_⟩
    rw [← sortOf_pT] at hs
    simp [atomArgs, hs, i5, pTs]
  | [], _ :: _, h => by simp [OkAtom] at h
  | _ :: _, [], h => by simp [OkAtom] at h

/-! ### Variable lists -/

theorem readTypename_sname {s : String} (h : SName s) : ∃ x, TextOf s.toList x ∧ readTypename x = .ok s := by
  rcases h with h | rfl | rfl | rfl | rfl
  · exact ⟨_, textOf_pname h, by simp [readTypename, lowerS_pname h]⟩
  · exact ⟨_, textOf_kw ['o','b','j','e','c','t'] 'o' ['b','j','e','c','t'] .kObject rfl (by decide) (by decide)
      (by decide), rfl⟩
  · exact ⟨_, textOf_kw ['i','n','t'] 'i' ['n','t'] .kInt rfl (by decide) (by decide) (by decide), rfl⟩
  · exact ⟨_, textOf_kw ['f','l','o','a','t'] 'f' ['l','o','a','t'] .kFloat rfl (by decide) (by decide)
      (by decide), rfl⟩
  · exact ⟨_, textOf_kw ['n','u','m','b','e','r'] 'n' ['u','m','b','e','r'] .kNumber rfl (by decide) (by decide)
      (by decide), rfl⟩

theorem varDecl_texts {v : Var} {x : SX} (hv : VName v.sym) (hx : TextOf v.sort.toList x) :
    TextsOf (printVarDecl v) [.tok (.var (String.ofList (printVarName v.sym))), .tok .dash, x] := by
  have h1 := textsOf_spaced (.cons (textOf_vname hv) (.cons (textOf_tok lexesTo_dash (by simp) (by simp))
    (.cons hx .nil)))
  simpa [joinWith, printVarDecl, List.append_assoc] using h1

theorem varList_read (vs : List Var) (h : ∀ v ∈ vs, VName v.sym ∧ SName v.sort ∧ L.hasSort v.sort = true) :
    ∃ xs, TextsOf (printVarList vs) xs ∧ readVarsList L xs = .ok (vs.map pvar) := by
  have key : ∃ xss, List.Forall₂ TextsOf (vs.map printVarDecl) xss ∧
      readVarsGo L [] xss.flatten = .ok (vs.map pvar) := by
    induction vs with
    | nil => exact ⟨[], .nil, by simp [readVarsGo, mkVars]⟩
    | cons v vs ih =>
      obtain ⟨xss, h1, h2⟩ := ih (fun w hw => h w (by simp [hw]))
      obtain ⟨hv, hs, hh⟩ := h v (by simp)
      obtain ⟨x, hx, hx2⟩ := readTypename_sname hs
      refine ⟨_, .cons (varDecl_texts hv hx) h1, ?_⟩
      simp [readVarsGo, hx2, mkVars, hh, h2, pvar]
  obtain ⟨xss, h1, h2⟩ := key
  exact ⟨_, textsOf_join (sep := [' ']) (by simp) blank_sp h1, h2⟩

theorem pushAll_ok {b : VBinding} {sc : List Var} (hb : b.variables = sc.map (fun v => ((pvar v).sym, pvar v))) :
    ∀ vs : List Var, ((sc ++ vs).map (fun v => (pvar v).sym)).Nodup →
      ∃ b', pushAll b (vs.map pvar) = .ok b' ∧ b'.variables = (sc ++ vs).map (fun v => ((pvar v).sym, pvar v)) := by
  intro vs
  induction vs generalizing b sc with
  | nil => intro _; exact ⟨b, by simp [pushAll], by simpa using hb⟩
  | cons v vs ih =>
    intro hn
    have hnew : dlookup b.variables (pvar v).sym = none := by
      rw [hb]
      apply dlookup_map_none
      intro hm
      simp only [List.map_append, List.map_cons, List.nodup_append] at hn
      exact hn.2.2 _ hm (pvar v).sym (by simp) rfl
    have ha : b.add (pvar v) =
        (⟨dinsert b.variables (pvar v).sym (pvar v), b.values ++ [pvar v], dinsert b.index (pvar v).sym b.index.length⟩,
          none) := by
      simp [VBinding.add, hnew]
    obtain ⟨b', h1, h2⟩ := ih (sc := sc ++ [v])
      (b := ⟨dinsert b.variables (pvar v).sym (pvar v), b.values ++ [pvar v],
        dinsert b.index (pvar v).sym b.index.length⟩)
      (by rw [dinsert_new _ _ _ hnew, hb]; simp) (by simpa using hn)
    refine ⟨b', ?_, by simpa using h2⟩
    simp only [List.map_cons, pushAll, ha]
    exact h1

theorem pushVars_ok {b : Option VBinding} {sc : List Var} (hb : ScopeIs b sc) {vs : List Var}
    (hn : ((sc ++ vs).map (fun v => (pvar v).sym)).Nodup) :
    ∃ b', pushVars b (vs.map pvar) = .ok b' ∧ ScopeIs (some b') (sc ++ vs) := by
  cases b with
  | none =>
    simp only [ScopeIs] at hb
    subst hb
    refine ⟨_, rfl, ?_⟩
    simp only [ScopeIs, VBinding.ofList, List.nil_append] at hn ⊢
    rw [dictOf_nodup]
    · simp [List.map_map]
    · simpa [List.map_map, Function.comp_def] using hn
  | some b => exact pushAll_ok hb vs hn

theorem asVars_map (us : List Var) : asVars (us.map Term.var) = .ok us := by
  induction us with
  | nil => rfl
  | cons u us ih => simp [asVars, ih]

theorem pTs_map_var (us : List Var) : pTs (us.map Term.var) = (us.map pvar).map Term.var := by
  induction us with
  | nil => rfl
  | cons u us ih => simp [pTs, pT, ih]

theorem pFs_length : ∀ fs : List Formula, (pFs fs).length = fs.length
  | [] => rfl
  | _ :: fs => by simp [pFs, pFs_length fs]

theorem quantified_vars_ok (q : Quant) {us : List Var} (h : us ≠ []) (f : Formula) :
    quantified q (us.map Term.var) f = .ok (.quant q (us.map Term.var) f) := by
  have h1 : (us.map Term.var).isEmpty = false := by cases us <;> simp_all
  unfold quantified
  simp [h, List.all_eq_true]

theorem cmp_read {b : Option VBinding} {c : Cmp} (hc : c ≠ .ne) {ts : List Term}
    (hl : L.hasCmp c = true) (h : TwoOk L real b c.argSort ts) :
    ∃ ws x, printTs real ts = .ok ws ∧ TextOf ('(' :: c.text ++ ' ' :: joinWith [' '] ws ++ [')']) x ∧
      readF L b x = .ok (.atom (.cmp c) (pTs ts)) := by
  obtain ⟨t, u, l, r, s1, s2, x, y, rfl, h1, h2, h3, h4, h5, h6, h7, h8⟩ := h
  refine ⟨[s1, s2], _, by simp [printTs, h1, h4],
    textOf_call2 (textOf_tok (lexesTo_cmp c hc) (by simp) (by simp)) h2 h5, ?_⟩
  simp only [readF, h3, h6, mkCmp, h7, hl, h8, if_true, pTs]

theorem textOf_and : TextOf Conn.and.text (.tok (.kw .kAnd)) :=
  textOf_kw _ 'a' ['n','d'] .kAnd rfl (by decide) (by decide) (by decide)
theorem textOf_or : TextOf Conn.or.text (.tok (.kw .kOr)) :=
  textOf_kw _ 'o' ['r'] .kOr rfl (by decide) (by decide) (by decide)
theorem textOf_not : TextOf Conn.not.text (.tok (.kw .kNot)) :=
  textOf_kw _ 'n' ['o','t'] .kNot rfl (by decide) (by decide) (by decide)
theorem textOf_exists : TextOf Quant.exists.text (.tok (.kw .kExists)) :=
  textOf_kw _ 'e' ['x','i','s','t','s'] .kExists rfl (by decide) (by decide) (by decide)
theorem textOf_forall : TextOf Quant.forall.text (.tok (.kw .kForall)) :=
  textOf_kw _ 'f' ['o','r','a','l','l'] .kForall rfl (by decide) (by decide) (by decide)

theorem textOf_binder {hd vars body : Text} {x y : SX} {xs : List SX} (h : TextOf hd x) (hv : TextsOf vars xs)
    (hb : TextOf body y) :
    TextOf ('(' :: hd ++ [' ', '('] ++ vars ++ [')', ' '] ++ body ++ [')']) (.list [x, .list xs, y]) := by
  have := textOf_call h (.cons (textOf_paren hv) (.cons hb .nil))
  simpa [joinWith, List.append_assoc] using this

/-- Reading back a formula. -/
def FormulaOk (L : RLang) (real : String → Bool) (b : Option VBinding) (f : Formula) : Prop :=
  ∃ s x, printF real f = .ok s ∧ TextOf s x ∧ readF L b x = .ok (pF f)

mutual
theorem formula_read :
    ∀ (f : Formula) {b : Option VBinding} {sc : List Var}, ScopeIs b sc →
    (sc.map (fun v => (pvar v).sym)).Nodup → (∀ v ∈ sc, VName v.sym) →
    OkF L real sc f → FormulaOk L real b f
  | .top, b, sc, hb, hn, hvn, h => by
    refine ⟨_, _, by simp only [printF]; rfl, textOf_call (l := []) textOf_and .nil, ?_⟩
    simp [readF, readFs, pF]
  | .bot, b, sc, hb, hn, hvn, h => by
    simp only [OkF] at h
    obtain ⟨h1, h2, h3, h4, h5⟩ := h
    refine ⟨_, _, by simp only [printF]; rfl, textOf_call2 (a := intText 0) (b := intText 1)
      (textOf_tok (lexesTo_cmp .eq (by simp)) (by simp) (by simp)) (textOf_int 0) (textOf_int 1), ?_⟩
    simp [readF, readT, parseNumber_intText, mkCmp, RLang.hasCmp, Cmp.argSort, castPair, RLang.constOf, h1, h2, h3, h4, h5, RLang.sortOf, pF]
  | .atom p ts, b, sc, hb, hn, hvn, h => by
    cases p with
    | user p =>
      simp only [OkF] at h
      obtain ⟨hp, ss, hss, h⟩ := h
      obtain ⟨ws, xs, vs, h1, h2, h3, h4, h5⟩ := atom_read hb hn hvn ts ss h
      refine ⟨_, _, by simp only [printF, printAtom, h1], textOf_call (textOf_pname hp) h2, ?_⟩
      simp [readF, h3, mkUserAtom, lowerS_pname hp, hss, h4, h5, pF]
    | cmp c =>
      cases c with
      | eq =>
        simp only [OkF] at h
        obtain ⟨ws, x, h1, h2, h3⟩ := cmp_read (c := .eq) (by simp) h.1 (two_read hb hn hvn "object" ts h.2)
        exact ⟨_, _, by simp only [printF, printAtom, h1], h2, by simpa [pF] using h3⟩
      | ne =>
        simp only [OkF] at h
        obtain ⟨ws, x, h1, h2, h3⟩ := cmp_read (c := .eq) (by simp) h.1 (two_read hb hn hvn "object" ts h.2)
        refine ⟨['(', 'n', 'o', 't', ' ', '(', '=', ' '] ++ joinWith [' '] ws ++ [')', ')'],
          .list [.tok (.kw .kNot), x], by simp only [printF, printAtom, h1], ?_, ?_⟩
        · have := textOf_call textOf_not (.cons h2 .nil)
          simpa [joinWith, Conn.text, Cmp.text, List.append_assoc] using this
        · simp [readF, h3, pF]
      | lt =>
        simp only [OkF] at h
        obtain ⟨ws, x, h1, h2, h3⟩ := cmp_read (c := .lt) (by simp) h.1 (two_read hb hn hvn "Real" ts h.2)
        exact ⟨_, _, by simp only [printF, printAtom, h1], h2, by simpa [pF] using h3⟩
      | le =>
        simp only [OkF] at h
        obtain ⟨ws, x, h1, h2, h3⟩ := cmp_read (c := .le) (by simp) h.1 (two_read hb hn hvn "Real" ts h.2)
        exact ⟨_, _, by simp only [printF, printAtom, h1], h2, by simpa [pF] using h3⟩
      | gt =>
        simp only [OkF] at h
        obtain ⟨ws, x, h1, h2, h3⟩ := cmp_read (c := .gt) (by simp) h.1 (two_read hb hn hvn "Real" ts h.2)
        exact ⟨_, _, by simp only [printF, printAtom, h1], h2, by simpa [pF] using h3⟩
      | ge =>
        simp only [OkF] at h
        obtain ⟨ws, x, h1, h2, h3⟩ := cmp_read (c := .ge) (by simp) h.1 (two_read hb hn hvn "Real" ts h.2)
        exact ⟨_, _, by simp only [printF, printAtom, h1], h2, by simpa [pF] using h3⟩
  | .comp k c fs, b, sc, hb, hn, hvn, h => by
    cases c with
    | and =>
      simp only [OkF] at h
      obtain ⟨ws, xs, h1, h2, h3⟩ := formulas_read fs hb hn hvn h.2
      refine ⟨_, _, by simp only [printF, h1], textOf_call textOf_and h2, ?_⟩
      have hl := pFs_length fs
      have h2' : 2 ≤ (pFs fs).length := by omega
      simp only [readF, h3, pF]
      match hp : pFs fs with
      | [] => rw [hp] at h2'; simp at h2'
      | [_] => rw [hp] at h2'; simp at h2'
      | a :: a2 :: l => simp [mkComp]
    | or =>
      simp only [OkF] at h
      obtain ⟨ws, xs, h1, h2, h3⟩ := formulas_read fs hb hn hvn h.2
      refine ⟨_, _, by simp only [printF, h1], textOf_call textOf_or h2, ?_⟩
      have hl := pFs_length fs
      have h2' : ¬ (pFs fs).length < 2 := by omega
      simp [readF, h3, mkComp, h2', pF]
    | not =>
      simp only [OkF] at h
      obtain ⟨ws, xs, h1, h2, h3⟩ := formulas_read fs hb hn hvn h.2
      refine ⟨_, _, by simp only [printF, h1], textOf_call textOf_not h2, ?_⟩
      match fs, h.1 with
      | [f], _ =>
        match xs, h3 with
        | [], h3 => simp [readFs, pFs] at h3
        | [x], h3 =>
          simp only [readFs, pFs] at h3
          cases hx : readF L b x with
          | error e => simp [hx] at h3
          | ok g =>
            simp only [hx, Except.ok.injEq, List.cons.injEq, and_true] at h3
            simp [readF, hx, h3, neg, pF, pFs]
        | x :: y :: zs, h3 =>
          simp only [readFs, pFs] at h3
          cases hx : readF L b x with
          | error e => simp [hx] at h3
          | ok g =>
            cases hy : readF L b y with
            | error e => simp [hx, hy] at h3
            | ok g' =>
              cases hz : readFs L b zs with
              | error e => simp [hx, hy, hz] at h3
              | ok gs => simp [hx, hy, hz] at h3
  | .quant q vs f, b, sc, hb, hn, hvn, h => by
    simp only [OkF] at h
    obtain ⟨us, rfl, hne, hd, hf⟩ := h
    obtain ⟨b', hb1, hb2⟩ := pushVars_ok hb hd.2
    have hvn' : ∀ v ∈ sc ++ us, VName v.sym := by
      intro v hv
      rcases List.mem_append.mp hv with hv | hv
      · exact hvn v hv
      · exact (hd.1 v hv).1
    obtain ⟨s, x, h1, h2, h3⟩ := formula_read f hb2 hd.2 hvn' hf
    obtain ⟨xs, h4, h5⟩ := varList_read us hd.1
    cases q with
    | «exists» =>
      refine ⟨_, _, by simp only [printF, asVars_map, h1], textOf_binder textOf_exists h4 h2, ?_⟩
      simp only [readF, h5, hb1, h3, pF, pTs_map_var]
      exact quantified_vars_ok .exists (by simpa using hne) _
    | «forall» =>
      refine ⟨_, _, by simp only [printF, asVars_map, h1], textOf_binder textOf_forall h4 h2, ?_⟩
      simp only [readF, h5, hb1, h3, pF, pTs_map_var]
      exact quantified_vars_ok .forall (by simpa using hne) _
theorem formulas_read :
    ∀ (fs : List Formula) {b : Option VBinding} {sc : List Var}, ScopeIs b sc →
    (sc.map (fun v => (pvar v).sym)).Nodup → (∀ v ∈ sc, VName v.sym) → OkFs L real sc fs →
      ∃ ws xs, printFs real fs = .ok ws ∧ List.Forall₂ TextOf ws xs ∧ readFs L b xs = .ok (pFs fs)
  | [], b, sc, hb, hn, hvn, h => ⟨[], [], by simp [printFs], .nil, by simp [readFs, pFs]⟩
  | f :: fs, b, sc, hb, hn, hvn, h => by
    simp only [OkFs] at h
    obtain ⟨s, x, h1, h2, h3⟩ := formula_read f hb hn hvn h.1
    obtain ⟨ws, xs, i1, i2, i3⟩ := formulas_read fs hb hn hvn h.2
    exact ⟨s :: ws, x :: xs, by simp [printFs, h1, i1], .cons h2 i2, by simp [readFs, h3, i3, pFs]⟩
end

end

end Tarski

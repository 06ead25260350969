import Verif.PddlEffSpec
import Verif.PddlSem
/-! Lemmas: reading the text that the writer prints for effects and actions. -/
namespace Tarski

mutual
/-- The effect that is read back. -/
def pE : Effect → Effect
  | .add c p ts => .add (pF c) p (pTs ts)
  | .del c p ts => .del (pF c) p (pTs ts)
  | .lit c l => .lit c l
  | .assign c f ts r => .assign (pF c) f (pTs ts) (pT r)
  | .univ c vs es => .univ (pF c) (vs.map pvar) (pEs es)
def pEs : List Effect → List Effect
  | [] => []
  | e :: es => pE e :: pEs es
end

theorem pEs_map : ∀ es : List Effect, pEs es = es.map pE
  | [] => rfl
  | e :: es => by simp [pEs, pEs_map es]

theorem pname_not_builtin {f : String} (h : PName f) : f ∉ builtinBinary := by
  intro hm
  obtain ⟨hr, _, c, cs, hl, hc, _⟩ := h
  simp only [builtinBinary, List.mem_cons, List.not_mem_nil, or_false] at hm
  rcases hm with rfl | rfl | rfl | rfl | rfl | rfl | rfl | rfl | rfl
  all_goals first
    | (have h2 : reserved "min" = some .kMin := by decide
       rw [h2] at hr; cases hr)
    | (have h2 : reserved "max" = some .kMax := by decide
       rw [h2] at hr; cases hr)
    | (simp only [String.toList] at hl
       injection hl with h3 _
       subst h3
       revert hc; decide)

section
variable {L : RLang} {real : String → Bool}

theorem atomF_read {b : Option VBinding} {sc : List Var} (hb : ScopeIs b sc)
    (hn : (sc.map (fun v => (pvar v).sym)).Nodup) (hvn : ∀ v ∈ sc, VName v.sym) {p : String} {ts : List Term}
    {ss : List String} (hp : PName p) (hss : L.preds p = some ss) (h : OkAtom L real sc ts ss) :
    ∃ s xs, printAtom real (.user p) ts = .ok s ∧ TextOf s (.list (.tok (.name p) :: xs)) ∧
      readAtomF L b (.list (.tok (.name p) :: xs)) = .ok (.user p, pTs ts) := by
  obtain ⟨ws, xs, vs, h1, h2, h3, h4, h5⟩ := atom_read hb hn hvn ts ss h
  refine ⟨_, xs, by simp only [printAtom, h1], textOf_call (textOf_pname hp) h2, ?_⟩
  simp [readAtomF, h3, mkUserAtom, lowerS_pname hp, hss, h4, h5]

/-- Reading back an effect without its condition, as an atomic effect. -/
def AtomicOk (L : RLang) (real : String → Bool) (b : Option VBinding) (e : Effect) : Prop :=
  ∃ u x, printU real e = .ok u ∧ TextOf u x ∧ (∀ xs, x ≠ .list (.tok (.kw .kAnd) :: xs)) ∧
    (∀ c f top, readEff L b top x = .ok [(pE e).withCond .top] ∧
      (readF L b c = .ok f → readWhen L b c x = .ok [(pE e).withCond f]))

/-- Reading back an effect. -/
def EffOk (L : RLang) (real : String → Bool) (b : Option VBinding) (e : Effect) : Prop :=
  ∃ u s x, printU real e = .ok u ∧ printWhen real e.cond u = .ok s ∧ TextOf s x ∧
    ∀ top, readEff L b top x = .ok [pE e]

theorem textOf_when : TextOf ['w', 'h', 'e', 'n'] (.tok (.kw .kWhen)) :=
  textOf_kw _ 'w' ['h','e','n'] .kWhen rfl (by decide) (by decide) (by decide)
theorem textOf_assign : TextOf ['a', 's', 's', 'i', 'g', 'n'] (.tok (.kw .kAssign)) :=
  textOf_kw _ 'a' ['s','s','i','g','n'] .kAssign rfl (by decide) (by decide) (by decide)
theorem textOf_increase : TextOf ['i', 'n', 'c', 'r', 'e', 'a', 's', 'e'] (.tok (.kw .kIncrease)) :=
  textOf_kw _ 'i' ['n','c','r','e','a','s','e'] .kIncrease rfl (by decide) (by decide) (by decide)

theorem withCond_cond (e : Effect) (h : ∀ c l, e ≠ .lit c l) : (pE e).withCond (pF e.cond) = pE e := by
  cases e with
  | lit c l => exact absurd rfl (h c l)
  | add => simp [pE, Effect.withCond, Effect.cond]
  | del => simp [pE, Effect.withCond, Effect.cond]
  | assign => simp [pE, Effect.withCond, Effect.cond]
  | univ => simp [pE, Effect.withCond, Effect.cond]

theorem eff_of_atomic {b : Option VBinding} {sc : List Var} (hb : ScopeIs b sc)
    (hn : (sc.map (fun v => (pvar v).sym)).Nodup) (hvn : ∀ v ∈ sc, VName v.sym) {e : Effect}
    (hl : ∀ c l, e ≠ .lit c l) (hc : OkF L real sc e.cond) (h : AtomicOk L real b e) : EffOk L real b e := by
  obtain ⟨u, x, h1, h2, h3, h4⟩ := h
  by_cases ht : e.cond = .top
  · refine ⟨u, u, x, h1, by rw [ht]; rfl, h2, fun top => ?_⟩
    rw [(h4 (.list []) .top top).1]
    have := withCond_cond e hl
    rw [ht] at this
    simpa [pF] using this
  · obtain ⟨s, y, i1, i2, i3⟩ := formula_read e.cond hb hn hvn hc
    have hw : printWhen real e.cond u = .ok (['(', 'w', 'h', 'e', 'n', ' '] ++ s ++ ' ' :: u ++ [')']) := by
      revert ht i1
      cases e.cond <;> intro ht i1 <;> simp_all [printWhen]
    refine ⟨u, _, .list [.tok (.kw .kWhen), y, x], h1, hw, ?_, fun top => ?_⟩
    · have := textOf_call2 textOf_when i2 h2
      simpa [joinWith, List.append_assoc] using this
    · simp only [readEff]
      rw [(h4 y _ top).2 i3, withCond_cond e hl]

theorem add_read {b : Option VBinding} {sc : List Var} (hb : ScopeIs b sc)
    (hn : (sc.map (fun v => (pvar v).sym)).Nodup) (hvn : ∀ v ∈ sc, VName v.sym) {c : Formula} {p : String}
    {ts : List Term} {ss : List String} (hp : PName p) (hss : L.preds p = some ss) (h : OkAtom L real sc ts ss) :
    AtomicOk L real b (.add c (.user p) ts) := by
  obtain ⟨s, xs, h1, h2, h3⟩ := atomF_read hb hn hvn hp hss h
  refine ⟨s, _, by simpa [printU] using h1, h2, by simp, fun c f' top => ⟨?_, fun hf' => ?_⟩⟩
  · simp [readEff, readAtomic, h3, pE, Effect.withCond]
  · simp [readWhen, hf', readAtomic, h3, pE, Effect.withCond]

theorem del_read {b : Option VBinding} {sc : List Var} (hb : ScopeIs b sc)
    (hn : (sc.map (fun v => (pvar v).sym)).Nodup) (hvn : ∀ v ∈ sc, VName v.sym) {c : Formula} {p : String}
    {ts : List Term} {ss : List String} (hp : PName p) (hss : L.preds p = some ss) (h : OkAtom L real sc ts ss) :
    AtomicOk L real b (.del c (.user p) ts) := by
  obtain ⟨s, xs, h1, h2, h3⟩ := atomF_read hb hn hvn hp hss h
  refine ⟨['(', 'n', 'o', 't', ' '] ++ s ++ [')'], .list [.tok (.kw .kNot), .list (.tok (.name p) :: xs)],
    by simp [printU, h1], ?_, by simp, fun c f' top => ⟨?_, fun hf' => ?_⟩⟩
  · have := textOf_call textOf_not (.cons h2 .nil)
    simpa [joinWith, Conn.text, List.append_assoc] using this
  · simp [readEff, readAtomic, h3, pE, Effect.withCond]
  · simp [readWhen, hf', readAtomic, h3, pE, Effect.withCond]

theorem app_read {b : Option VBinding} {sc : List Var} (hb : ScopeIs b sc)
    (hn : (sc.map (fun v => (pvar v).sym)).Nodup) (hvn : ∀ v ∈ sc, VName v.sym) {f : String}
    {ts : List Term} {ss : List String} {s : String} (hp : PName f) (hss : L.funs f = some (ss, s))
    (h : OkArgs L real sc ts ss) :
    ∃ w xs, printT real (.app f ts) = .ok w ∧ TextOf w (.list (.tok (.name f) :: xs)) ∧
      readFunT L b (.list (.tok (.name f) :: xs)) = .ok (.term (.app f (pTs ts))) := by
  obtain ⟨ws, xs, vs, h1, h2, h3, h4, h5⟩ := args_read hb hn hvn ts ss h
  refine ⟨_, xs, by simp [printT, h1], textOf_call (textOf_pname hp) h2, ?_⟩
  simp [readFunT, readT, h3, mkUserApp, lowerS_pname hp, hss, h4, h5]

theorem sortOf_app {f : String} {ss : List String} {s : String} (hp : PName f) (hss : L.funs f = some (ss, s))
    (ts : List Term) : L.sortOf (.app f ts) = s := by
  simp [RLang.sortOf, pname_not_builtin hp, hss]

theorem assign_read {b : Option VBinding} {sc : List Var} (hb : ScopeIs b sc)
    (hn : (sc.map (fun v => (pvar v).sym)).Nodup) (hvn : ∀ v ∈ sc, VName v.sym) {c : Formula} {f : String}
    {ts : List Term} {r : Term} {ss : List String} {s : String} (hp : PName f) (hss : L.funs f = some (ss, s))
    (h : OkArgs L real sc ts ss) (hr : OkRhs L real sc s r) :
    AtomicOk L real b (.assign c f ts r) := by
  obtain ⟨w, xs, h1, h2, h3⟩ := app_read hb hn hvn hp hss h
  have : ∃ u y, printT real r = .ok u ∧ TextOf u y ∧
      readAssign L b (.list (.tok (.name f) :: xs)) y = .ok (.assign .top f (pTs ts) (pT r)) := by
    rcases hr with hr | hr
    · obtain ⟨u, y, i1, i2, i3⟩ := term_read hb hn hvn r hr
      exact ⟨u, y, i1, i2, by simp [readAssign, h3, i3, mkAssign]⟩
    · obtain ⟨n, _, hc, u, y, i1, i2, i3⟩ := operand_num (b := b) hr
      exact ⟨u, y, i1, i2, by simp [readAssign, h3, i3, mkAssign, sortOf_app hp hss, hc]⟩
  obtain ⟨u, y, i1, i2, i3⟩ := this
  refine ⟨['(', 'a', 's', 's', 'i', 'g', 'n', ' '] ++ w ++ ' ' :: u ++ [')'],
    .list [.tok (.kw .kAssign), .list (.tok (.name f) :: xs), y], by simp [printU, h1, i1], ?_, by simp,
    fun c f' top => ⟨?_, fun hf' => ?_⟩⟩
  · have := textOf_call2 textOf_assign h2 i2
    simpa [joinWith, List.append_assoc] using this
  · simp [readEff, readAtomic, i3, pE, Effect.withCond]
  · simp [readWhen, hf', readAtomic, i3, pE, Effect.withCond]

/-! ### Lists of effects -/

theorem textOf_indent {t : Text} {x : SX} (n : Nat) (h : TextOf t x) : TextOf (indentBy n t) x := by
  refine ⟨lexesTo_lead h.1 ?_, h.2⟩
  intro c hc
  have := List.eq_of_mem_replicate hc
  subst this
  decide

theorem blank_nl : ∀ c ∈ (['\n'] : Text), isBlank c = true := by decide

theorem textOf_andLines {ts : List Text} {xs : List SX} (n : Nat) (h : List.Forall₂ TextOf ts xs) :
    TextOf (andLines (ts.map (indentBy n))) (.list (.tok (.kw .kAnd) :: xs)) := by
  have h2 : List.Forall₂ TextsOf (ts.map (indentBy n)) (xs.map fun x => [x]) := by
    induction h with
    | nil => exact .nil
    | cons h _ ih => exact .cons (textOf_single (textOf_indent n h)) ih
  have h3 := textsOf_join (sep := ['\n']) (by simp) blank_nl h2
  have h4 := textsOf_sep (textOf_single textOf_and) h3 (sep := ['\n']) (by simp) blank_nl
  have h5 := textOf_paren h4
  have h6 : (xs.map fun x => [x]).flatten = xs := by
    clear h h2 h3 h4 h5
    induction xs with
    | nil => rfl
    | cons x xs ih => simp [ih]
  rw [h6] at h5
  simpa [andLines, Conn.text, List.append_assoc] using h5

theorem effs_flat {b : Option VBinding} : ∀ {xs : List SX} {es : List Effect},
    List.Forall₂ (fun x e => ∀ top, readEff L b top x = .ok [pE e]) xs es → readEffs L b xs = .ok (pEs es)
  | _, _, .nil => by simp [readEffs, pEs]
  | _, _, .cons h hs => by simp [readEffs, h false, effs_flat hs, pEs]

theorem sub_read {b : Option VBinding} {ss : List Text} {xs : List SX} {es : List Effect}
    (h1 : List.Forall₂ TextOf ss xs) (h2 : List.Forall₂ (fun x e => ∀ top, readEff L b top x = .ok [pE e]) xs es) :
    ∃ x, TextOf (printSub ss) x ∧ readEff L b true x = .ok (pEs es) := by
  match ss, xs, es, h1, h2 with
  | [], _, _, .nil, .nil =>
    refine ⟨_, textOf_call (l := []) textOf_and .nil, ?_⟩
    simp [readEff, readEffs, pEs]
  | [t], _, _, .cons ht .nil, .cons he .nil => exact ⟨_, ht, by simp [he true, pEs]⟩
  | t :: u :: l, _, _, h1, h2 =>
    refine ⟨_, textOf_andLines 1 h1, ?_⟩
    simp only [readEff, if_true]
    exact effs_flat h2

mutual
theorem effect_read : ∀ (e : Effect) {b : Option VBinding} {sc : List Var}, ScopeIs b sc →
    (sc.map (fun v => (pvar v).sym)).Nodup → (∀ v ∈ sc, VName v.sym) → OkE L real sc e → EffOk L real b e
  | .add c p ts, b, sc, hb, hn, hvn, h => by
    cases p with
    | cmp c => simp [OkE] at h
    | user p =>
      simp only [OkE] at h
      obtain ⟨hc, hp, ss, hss, h⟩ := h
      exact eff_of_atomic hb hn hvn (by simp) hc (add_read hb hn hvn hp hss h)
  | .del c p ts, b, sc, hb, hn, hvn, h => by
    cases p with
    | cmp c => simp [OkE] at h
    | user p =>
      simp only [OkE] at h
      obtain ⟨hc, hp, ss, hss, h⟩ := h
      exact eff_of_atomic hb hn hvn (by simp) hc (del_read hb hn hvn hp hss h)
  | .lit c l, b, sc, hb, hn, hvn, h => by simp [OkE] at h
  | .assign c f ts r, b, sc, hb, hn, hvn, h => by
    simp only [OkE] at h
    obtain ⟨hc, hp, ss, s, hss, h, hr⟩ := h
    exact eff_of_atomic hb hn hvn (by simp) hc (assign_read hb hn hvn hp hss h hr)
  | .univ c vs es, b, sc, hb, hn, hvn, h => by
    simp only [OkE] at h
    obtain ⟨rfl, hd, h⟩ := h
    obtain ⟨b', hb1, hb2⟩ := pushVars_ok hb hd.2
    have hvn' : ∀ v ∈ sc ++ vs, VName v.sym := by
      intro v hv
      rcases List.mem_append.mp hv with hv | hv
      · exact hvn v hv
      · exact (hd.1 v hv).1
    obtain ⟨ss, xs, h1, h2, h3⟩ := effects_read es hb2 hd.2 hvn' h
    obtain ⟨ys, h4, h5⟩ := varList_read vs hd.1
    obtain ⟨x, h6, h7⟩ := sub_read h2 h3
    refine ⟨_, _, .list [.tok (.kw .kForall), .list ys, x], by simp only [printU, h1]; rfl,
      by simp only [Effect.cond, printWhen]; rfl, ?_, fun top => ?_⟩
    · have := textOf_binder textOf_forall h4 h6
      simpa [Quant.text, List.append_assoc] using this
    · simp [readEff, h5, hb1, h7, pE, pF]
theorem effects_read : ∀ (es : List Effect) {b : Option VBinding} {sc : List Var}, ScopeIs b sc →
    (sc.map (fun v => (pvar v).sym)).Nodup → (∀ v ∈ sc, VName v.sym) → OkEs L real sc es →
    ∃ ss xs, printEs real es = .ok ss ∧ List.Forall₂ TextOf ss xs ∧
      List.Forall₂ (fun x e => ∀ top, readEff L b top x = .ok [pE e]) xs es
  | [], b, sc, hb, hn, hvn, h => ⟨[], [], by simp [printEs], .nil, .nil⟩
  | e :: es, b, sc, hb, hn, hvn, h => by
    simp only [OkEs] at h
    obtain ⟨u, s, x, h1, h2, h3, h4⟩ := effect_read e hb hn hvn h.1
    obtain ⟨ss, xs, i1, i2, i3⟩ := effects_read es hb hn hvn h.2
    exact ⟨s :: ss, x :: xs, by simp [printEs, h1, h2, i1], .cons h3 i2, .cons h4 i3⟩
end

/-! ### Meaning -/

mutual
theorem effect_sem {D : Type} (I : Interp D) (hI : EqMeaning I) : ∀ (e : Effect) {sc : List Var} {σ τ : Asg D},
    ScopeAgree sc σ τ → OkE L real sc e → ∀ ch, Demands I (pE e) σ ch ↔ Demands I e τ ch
  | .add c p ts, sc, σ, τ, ha, h, ch => by
    cases p with
    | cmp c => simp [OkE] at h
    | user p =>
      simp only [OkE] at h
      obtain ⟨hc, hp, ss, hss, h⟩ := h
      simp only [pE, Demands, formula_sem I hI c ha hc, atom_sem I ts ss ha h]
  | .del c p ts, sc, σ, τ, ha, h, ch => by
    cases p with
    | cmp c => simp [OkE] at h
    | user p =>
      simp only [OkE] at h
      obtain ⟨hc, hp, ss, hss, h⟩ := h
      simp only [pE, Demands, formula_sem I hI c ha hc, atom_sem I ts ss ha h]
  | .lit c l, sc, σ, τ, ha, h, ch => by simp [OkE] at h
  | .assign c f ts r, sc, σ, τ, ha, h, ch => by
    simp only [OkE] at h
    obtain ⟨hc, hp, ss, s, hss, h, hr⟩ := h
    have : evalT I (pT r) σ = evalT I r τ := by
      rcases hr with hr | hr
      · exact term_sem I r ha hr
      · exact numIn_sem I hr σ τ
    simp only [pE, Demands, formula_sem I hI c ha hc, args_sem I ts ss ha h, this]
  | .univ c vs es, sc, σ, τ, ha, h, ch => by
    simp only [OkE] at h
    obtain ⟨rfl, hd, h⟩ := h
    simp only [pE, Demands, pF, Sat, true_and]
    exact block_sem I .exists vs ha hd.2 (fun σ τ ha' => effects_sem I hI es ha' h ch)
theorem effects_sem {D : Type} (I : Interp D) (hI : EqMeaning I) : ∀ (es : List Effect) {sc : List Var} {σ τ : Asg D},
    ScopeAgree sc σ τ → OkEs L real sc es → ∀ ch, DemandsAny I (pEs es) σ ch ↔ DemandsAny I es τ ch
  | [], sc, σ, τ, ha, h, ch => by simp [pEs, DemandsAny]
  | e :: es, sc, σ, τ, ha, h, ch => by
    simp only [OkEs] at h
    simp only [pEs, DemandsAny, effect_sem I hI e ha h.1 ch, effects_sem I hI es ha h.2 ch]
end

/-! ### Actions -/

theorem lexGo_colon (w : Text) : ∀ acc : Text, (∀ c ∈ w, (isLetter c || c == '-') = true) → ∀ rest,
    lexGo (.colon acc) (w ++ rest) = lexGo (.colon (acc ++ w)) rest := by
  induction w with
  | nil => intro acc _ rest; simp
  | cons c w ih =>
    intro acc h rest
    have hc : (isLetter c || c == '-') = true := h c (by simp)
    simp only [List.cons_append, lexGo, lexStep, LexSt.extend, hc, if_true, List.nil_append]
    rw [ih (acc ++ [c]) (fun d hd => h d (by simp [hd])) rest]
    simp only [List.append_assoc, List.singleton_append]
    cases lexGo (.colon (acc ++ c :: w)) rest <;> rfl

theorem delim_not_colon {c : Char} (h : isBlank c = true ∨ c = '(' ∨ c = ')') : (isLetter c || c == '-') = false := by
  have h1 := delim_not_word h
  simp only [isWordChar, Bool.or_eq_false_iff] at h1 ⊢
  exact ⟨h1.1.1.1, h1.2⟩

theorem textOf_colon (w : Text) (k : CKw) (hw : ∀ c ∈ w, (isLetter c || c == '-') = true)
    (hk : colonTok (String.ofList w) = .ok (.ckw k)) : TextOf (':' :: w) (.tok (.ckw k)) := by
  refine textOf_tok ?_ (by simp) (by simp)
  intro rest us hd h
  have h1 : lexGo (.colon w) rest = .ok ([.ckw k] ++ us) := by
    apply lexGo_flush (by simp only [LexSt.flush, hk]) _ hd h
    intro d hd'
    simp [LexSt.extend, delim_not_colon hd']
  have h2 := lexGo_colon w [] hw rest
  have h3 : lexStart ':' = .ok ([], .colon []) := by decide
  simp only [List.nil_append] at h2
  simp only [List.cons_append, lexGo, lexStep, LexSt.extend, LexSt.flush, h3, List.nil_append, h2, h1]

theorem textOf_aname {s : String} (h : AName s) : TextOf s.toList (.tok (.name s)) := by
  obtain ⟨hr, c, cs, hl, hc, hcs⟩ := h
  have h1 := lexesTo_word hc hcs
  have h2 : String.ofList (c :: cs) = s := by rw [← hl, String.ofList_toList]
  rw [h2] at h1
  have h3 : wordTok s = .name s := by simp only [wordTok, hr]
  rw [h3, ← hl] at h1
  exact textOf_tok h1 (by simp) (by simp)

/-- Reading back the action cost. -/
theorem cost_read {b : Option VBinding} {sc : List Var} (hb : ScopeIs b sc)
    (hn : (sc.map (fun v => (pvar v).sym)).Nodup) (hvn : ∀ v ∈ sc, VName v.sym) {t : Term}
    (h : OkCost L real sc (some t)) :
    ∃ s x, printCost real true (some t) = .ok [s] ∧ TextOf s x ∧
      ∀ top, readEff L b top x = .ok [.assign .top "total-cost" [] (.app "+" [.app "total-cost" [], pT t])] := by
  simp only [OkCost] at h
  obtain ⟨ha, s, hs, hsub, h⟩ := h
  have hp : PName "total-cost" :=
    ⟨by decide, by decide, 't', ['o','t','a','l','-','c','o','s','t'], rfl, by decide, by decide⟩
  obtain ⟨w, xs, h1, h2, h3⟩ := app_read (real := real) hb hn hvn (ts := []) hp hs (by simp [OkArgs])
  have hw : w = ['(', 't','o','t','a','l','-','c','o','s','t', ' ', ')'] := by
    simp only [printT, printTs, Except.ok.injEq] at h1
    exact h1.symm
  subst hw
  have : ∃ u y, printT real t = .ok u ∧ TextOf u y ∧
      readUpdate L b "+" (.list (.tok (.name "total-cost") :: xs)) y =
        .ok (.assign .top "total-cost" [] (.app "+" [.app "total-cost" [], pT t])) := by
    have hso : L.sortOf (.app "total-cost" []) = s := sortOf_app hp hs []
    rcases h with ⟨h, h'⟩ | h
    · obtain ⟨u, y, i1, i2, i3⟩ := term_read hb hn hvn t h
      refine ⟨u, y, i1, i2, ?_⟩
      rw [← sortOf_pT] at h'
      simp [readUpdate, h3, i3, mkArith, ha, castPair, hso, hsub, h', mkAssign, pTs]
    · obtain ⟨n, hnn, hc, u, y, i1, i2, i3⟩ := operand_num (b := b) h
      refine ⟨u, y, i1, i2, ?_⟩
      have hpt : L.sortOf (pT t) = s := by rw [hnn]; simp [pT, RLang.sortOf]
      simp [readUpdate, h3, i3, mkArith, ha, castPair, hso, hsub, hc, hpt, mkAssign, pTs]
  obtain ⟨u, y, i1, i2, i3⟩ := this
  refine ⟨_, .list [.tok (.kw .kIncrease), .list (.tok (.name "total-cost") :: xs), y],
    by simp only [printCost, i1, if_true]; rfl, ?_, fun top => ?_⟩
  · have := textOf_call2 textOf_increase h2 i2
    have he : "(increase (total-cost ) ".toList = ['(', 'i','n','c','r','e','a','s','e',' ', '(', 't','o','t','a','l','-',
      'c','o','s','t', ' ', ')', ' '] := rfl
    rw [he]
    simpa [joinWith, List.append_assoc] using this
  · simp [readEff, readAtomic, assignOp, i3]

theorem splitCosts_plain : ∀ {es : List Effect}, (∀ e ∈ es, NotCost e) → ∀ (tl : List Effect) (r : List Effect × List Term),
    splitCosts tl = .ok r → splitCosts (pEs es ++ tl) = .ok (pEs es ++ r.1, r.2)
  | [], _, tl, r, h => by simpa [pEs] using h
  | e :: es, hp, tl, r, h => by
    have ih := splitCosts_plain (es := es) (fun e' he' => hp e' (List.mem_cons_of_mem _ he')) tl r h
    have hc : costOf (pE e) = .ok none := by
      have := hp e (by simp)
      cases e with
      | assign c f ts rhs => simp only [NotCost] at this; simp [pE, costOf, this]
      | add => simp [pE, costOf]
      | del => simp [pE, costOf]
      | lit => simp [pE, costOf]
      | univ => simp [pE, costOf]
    simp [pEs, splitCosts, hc, ih]

theorem effs_flat_append {b : Option VBinding} {tl : List SX} {fs : List Effect} (ht : readEffs L b tl = .ok fs) :
    ∀ {xs : List SX} {es : List Effect},
    List.Forall₂ (fun x e => ∀ top, readEff L b top x = .ok [pE e]) xs es → readEffs L b (xs ++ tl) = .ok (pEs es ++ fs)
  | _, _, .nil => by simpa [pEs] using ht
  | _, _, .cons h hs => by simp [readEffs, h false, effs_flat_append ht hs, pEs]

/-- Reading back the effects and the cost of an action. -/
theorem allEffects_read {b : Option VBinding} {sc : List Var} (hb : ScopeIs b sc)
    (hn : (sc.map (fun v => (pvar v).sym)).Nodup) (hvn : ∀ v ∈ sc, VName v.sym) {es : List Effect} {cost : Option Term}
    (he : OkEs L real sc es) (hp : ∀ e ∈ es, NotCost e) (hc : OkCost L real sc cost) (hasCost : Bool)
    (hh : cost ≠ none → hasCost = true) :
    ∃ s x fs, printEffects real hasCost es cost = .ok s ∧ TextOf s x ∧ readEff L b true x = .ok fs ∧
      splitCosts fs = .ok (pEs es, (cost.map pT).toList) := by
  obtain ⟨ss, xs, h1, h2, h3⟩ := effects_read es hb hn hvn he
  cases cost with
  | none =>
    have hsplit : splitCosts (pEs es) = .ok (pEs es, []) := by
      have := splitCosts_plain hp [] ([], []) rfl
      simpa using this
    cases es with
    | nil =>
      refine ⟨_, _, [], by simp only [printEffects]; rfl, textOf_call (l := []) textOf_and .nil, ?_, by simpa [pEs] using hsplit⟩
      simp [readEff, readEffs]
    | cons e es =>
      refine ⟨_, _, _, by simp only [printEffects, h1, printCost, List.append_nil]; rfl, textOf_andLines 2 h2, ?_, by simpa using hsplit⟩
      simp only [readEff, if_true]
      exact effs_flat h3
  | some t =>
    have hh' := hh (by simp)
    subst hh'
    obtain ⟨s, x, i1, i2, i3⟩ := cost_read hb hn hvn hc
    have h4 : List.Forall₂ TextOf (ss ++ [s]) (xs ++ [x]) := by
      have hcat : ∀ {a : List Text} {c : List SX}, List.Forall₂ TextOf a c → List.Forall₂ TextOf (a ++ [s]) (c ++ [x]) := by
        intro a c hac
        induction hac with
        | nil => exact .cons i2 .nil
        | cons h _ ih => exact .cons h ih
      exact hcat h2
    refine ⟨_, _, pEs es ++ [.assign .top "total-cost" [] (.app "+" [.app "total-cost" [], pT t])],
      by simp only [printEffects, h1, i1]; simp only [Option.isNone, Bool.and_false]; rfl,
      textOf_andLines 2 h4, ?_, ?_⟩
    · simp only [readEff, if_true]
      exact effs_flat_append (by simp [readEffs, i3 false]) h3
    · have := splitCosts_plain hp [.assign .top "total-cost" [] (.app "+" [.app "total-cost" [], pT t])] ([], [pT t])
        (by simp [splitCosts, costOf])
      simpa using this

/-- The action that is read back. -/
def pAction (a : PAction) : PAction :=
  ⟨a.name, a.params.map pvar, pF a.pre, pEs a.effs, a.cost.map pT⟩

theorem action_read {a : PAction} (h : OkAction L real a) (hasCost : Bool) (hh : a.cost ≠ none → hasCost = true) :
    ∃ t x, printAction real hasCost a = .ok t ∧ TextsOf t [x] ∧ readAction L x = .ok (pAction a) := by
  have hn : (a.params.map fun v => (pvar v).sym).Nodup := by simpa using h.params.2
  have hsc : ScopeIs (some (VBinding.ofList (a.params.map pvar))) a.params := by
    simp only [ScopeIs, VBinding.ofList]
    rw [dictOf_nodup]
    · simp [List.map_map]
    · simpa [List.map_map, Function.comp_def] using hn
  have hvn : ∀ v ∈ a.params, VName v.sym := fun v hv => (h.params.1 v hv).1
  obtain ⟨s, x, h1, h2, h3⟩ := formula_read a.pre hsc hn hvn h.pre
  obtain ⟨u, y, fs, i1, i2, i3, i4⟩ := allEffects_read hsc hn hvn h.effs h.plain h.cost hasCost hh
  obtain ⟨xs, j1, j2⟩ := varList_read a.params h.params.1
  have ka := textOf_colon ['a','c','t','i','o','n'] .action (by decide) (by decide)
  have kp := textOf_colon ['p','a','r','a','m','e','t','e','r','s'] .parameters (by decide) (by decide)
  have kc := textOf_colon ['p','r','e','c','o','n','d','i','t','i','o','n'] .precondition (by decide) (by decide)
  have ke := textOf_colon ['e','f','f','e','c','t'] .effect (by decide) (by decide)
  have bl : ∀ c ∈ (['\n',' ',' ',' ',' ',' '] : Text), isBlank c = true := by decide
  have bl4 : ∀ c ∈ (['\n',' ',' ',' ',' '] : Text), isBlank c = true := by decide
  have t1 := textsOf_sep (textOf_single ke) (textOf_single i2) (sep := [' ']) (by simp) blank_sp
  have t2 := textsOf_sep (textOf_single h2) t1 (sep := ['\n',' ',' ',' ',' ',' ']) (by simp) bl
  have t3 := textsOf_sep (textOf_single kc) t2 (sep := [' ']) (by simp) blank_sp
  have t4 := textsOf_sep (textOf_single (textOf_paren j1)) t3 (sep := ['\n',' ',' ',' ',' ',' ']) (by simp) bl
  have t5 := textsOf_sep (textOf_single kp) t4 (sep := [' ']) (by simp) blank_sp
  have t6 := textsOf_sep (textOf_single (textOf_aname h.name)) t5 (sep := ['\n',' ',' ',' ',' ',' ']) (by simp) bl
  have t7 := textsOf_sep (textOf_single ka) t6 (sep := [' ']) (by simp) blank_sp
  have t8 := textsOf_trail t7 (sep := ['\n',' ',' ',' ',' ']) (by simp) bl4
  have t9 := textsOf_lead (textOf_single (textOf_paren t8)) (sep := ['\n',' ',' ',' ',' ']) bl4
  have t10 := textsOf_trail t9 (sep := ['\n']) (by simp) (by decide)
  refine ⟨_, .list [.tok (.ckw .action), .tok (.name a.name), .tok (.ckw .parameters), .list xs,
    .tok (.ckw .precondition), x, .tok (.ckw .effect), y], by simp only [printAction, h1, i1]; rfl, ?_, ?_⟩
  · have e1 : "\n    (:action ".toList = ['\n',' ',' ',' ',' ','(',':','a','c','t','i','o','n',' '] := rfl
    have e2 : "\n     :parameters (".toList =
      ['\n',' ',' ',' ',' ',' ',':','p','a','r','a','m','e','t','e','r','s',' ','('] := rfl
    have e3 : ")\n     :precondition ".toList =
      [')','\n',' ',' ',' ',' ',' ',':','p','r','e','c','o','n','d','i','t','i','o','n',' '] := rfl
    have e4 : "\n     :effect ".toList = ['\n',' ',' ',' ',' ',' ',':','e','f','f','e','c','t',' '] := rfl
    have e5 : "\n    )\n".toList = ['\n',' ',' ',' ',' ',')','\n'] := rfl
    rw [e1, e2, e3, e4, e5]
    simpa [List.append_assoc] using t10
  · have hp : readPre L (some (VBinding.ofList (a.params.map pvar))) x = .ok (pF a.pre) := by
      cases x with
      | tok t => simpa [readPre] using h3
      | list l =>
        cases l with
        | nil => simp [readF] at h3
        | cons => simpa [readPre] using h3
    have hv : (VBinding.ofList (a.params.map pvar)).vars = a.params.map pvar := by
      have := hsc
      simp only [ScopeIs] at this
      simp [VBinding.vars, this]
    cases hcost : a.cost with
    | none => simp [readAction, actionName, j2, hp, i3, i4, hcost, hv, pAction]
    | some t => simp [readAction, actionName, j2, hp, i3, i4, hcost, hv, pAction]

end

end Tarski

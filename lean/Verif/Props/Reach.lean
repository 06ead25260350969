import Verif.ReachProgram
/-! Property C47: the reachability logic program derives everything a problem can reach. -/
namespace Tarski

/-- The domains list exactly the constants declared for a sort and for the sorts below it. -/
def DomsDeclared (X : LPInput) : Prop := ConstDoms X.dom ∧ ∀ s ∈ X.sorts, X.interval s = false →
  ∃ cs, X.dom s = .ok cs ∧ ∀ n, (∃ so, Term.const n so ∈ cs) ↔ UnderSort X n s

/-- C47, full statement: if the logic program is created, every atom that is true in some reachable state is derived, and
so is every instance of an action that is applicable in some reachable state, and the goal if it can be reached. -/
def C47_full : Prop := ∀ (X : LPInput) (R : CmpRel) (ord : List Var → List Var) (ground incl : Bool) (st : LPSt),
  DomsDeclared X → (∀ l, (ord l).Perm l) → createLP X ord ground incl = .ok st → ∀ S, PReach X R S →
    (∀ p as, S p as → LPDer R st.rules (.atom p) as) ∧
    (ground = true → ∀ n a σ, (n, a) ∈ X.actions → ApplicableIn (stateInterp X.dom R S) a σ →
      LPDer R st.rules (.action n) (a.params.map σ)) ∧
    (∀ σ, Sat (stateInterp X.dom R S) X.goal σ → LPDer R st.rules .goal [])

/-- C47 (part that holds): the statement is true of every problem whose objects have names that do not start with an
upper case letter, in each action of which the capitalised names of the variables are different, and whose variables range
over declared constants, not over intervals; formulas have no function symbols and do not bind a variable twice. Missing:
the other names and sorts, for which the statement is false (see below). -/
theorem C47_sound_partial (X : LPInput) (W : LPWellFormed X) (R : CmpRel) (ord : List Var → List Var)
    (hord : ∀ l, (ord l).Perm l) (ground incl : Bool) (st : LPSt) (h : createLP X ord ground incl = .ok st)
    (S : PState) (hS : PReach X R S) :
    (∀ p as, S p as → LPDer R st.rules (.atom p) as) ∧
    (ground = true → ∀ n a σ, (n, a) ∈ X.actions → ApplicableIn (stateInterp X.dom R S) a σ →
      LPDer R st.rules (.action n) (a.params.map σ)) ∧
    (∀ σ, Sat (stateInterp X.dom R S) X.goal σ → LPDer R st.rules .goal []) := by
  obtain ⟨c1, c2⟩ := createLP_complete W (fun l v => (hord l).mem_iff) h (lpDer_isModel R st.rules)
  have hat : ∀ p as, S p as → LPDer R st.rules (.atom p) as := by
    induction hS with
    | init S hi =>
      intro p as hp
      obtain ⟨ts, hm, rfl⟩ := (hi p as).mp hp
      exact c1 p ts hm S _
    | step S S' n a σ _ hm ha hs ih =>
      intro p as hp
      rcases (hs p as).mp hp with ⟨e, he, hc⟩ | ⟨hp, _⟩
      · exact (((c2 S ih).1 n a σ hm ha).2 e he p as hc)
      · exact ih p as hp
  refine ⟨hat, ?_, (c2 S hat).2⟩
  intro hg n a σ hm ha
  exact ((c2 S hat).1 n a σ hm ha).1 hg

/-- C47 in the form in which the grounding uses it: if the goal is not derived, the problem has no plan. -/
theorem C47_unsolvable_partial (X : LPInput) (W : LPWellFormed X) (R : CmpRel) (ord : List Var → List Var)
    (hord : ∀ l, (ord l).Perm l) (ground incl : Bool) (st : LPSt) (h : createLP X ord ground incl = .ok st)
    (hg : ¬ LPDer R st.rules .goal []) : ∀ S, PReach X R S → ∀ σ, ¬ Sat (stateInterp X.dom R S) X.goal σ :=
  fun S hS σ hs => hg ((C47_sound_partial X W R ord hord ground incl st h S hS).2.2 σ hs)

/-! ### Concrete problems -/

/-- Everything derived belongs to every set closed under the rules. -/
theorem lpDer_least {R : CmpRel} {P : List LPRule} {M : LPSym → List String → Prop} (hM : IsModel R P M) {s as}
    (h : LPDer R P s as) : M s as := by
  induction h with
  | rule r θ s args hr hh h1 h2 ih1 =>
    refine hM r hr θ s args hh ?_
    intro l hl
    cases l with
    | pred s' as => exact ih1 s' as hl
    | cmp c a b => exact h2 c a b hl
    | taut => trivial

/-- Comparison by equality only. -/
def eqCmpRel : CmpRel where
  rel c a b := match c with
    | .eq => a = b | .ne => a ≠ b | .lt => False | .ge => True | .le => False | .gt => True
  eq_iff _ _ := Iff.rfl
  compl c a b := by cases c <;> simp [Cmp.complement]

/-- Objects of two sorts, `block` below `object`. -/
def exLPDom (cs : List Term) : Domains := fun s => if s = "block" ∨ s = "object" then .ok cs else .ok []

/-- A problem with the given objects, all of sort `block`, in a language with the sorts `object` and `block`. -/
def exLP (objs : List String) (init : List (String × List Term)) (acts : List (String × Schema)) (goal : Formula) : LPInput where
  consts := objs.map fun o => (.str o, "block")
  sorts := ["object", "block"]
  interval _ := false
  parent s := if s = "block" then some "object" else none
  dom := exLPDom (objs.map fun o => .const (.str o) "block")
  initAtoms := init
  initFns := []
  costFns := []
  actions := acts
  goal := goal

theorem exLP_under {objs init acts goal} {n s} : UnderSort (exLP objs init acts goal) n s ↔
    (∃ o ∈ objs, n = .str o) ∧ (s = "block" ∨ s = "object") := by
  constructor
  · intro h
    induction h with
    | base s h =>
      simp only [exLP, List.mem_map, Prod.mk.injEq] at h
      obtain ⟨o, ho, rfl, rfl⟩ := h
      exact ⟨⟨o, ho, rfl⟩, .inl rfl⟩
    | step s p _ _ _ hp ih =>
      refine ⟨ih.1, .inr ?_⟩
      simp only [exLP] at hp
      split at hp
      · simpa using hp.symm
      · simp at hp
  · rintro ⟨⟨o, ho, rfl⟩, h⟩
    have hb : UnderSort (exLP objs init acts goal) (.str o) "block" := .base _ (by simp [exLP]; exact ho)
    rcases h with rfl | rfl
    · exact hb
    · exact .step _ _ hb (by simp [exLP]) rfl (by simp [exLP])

theorem exLP_doms {objs init acts goal} : DomsDeclared (exLP objs init acts goal) := by
  refine ⟨?_, ?_⟩
  · intro s cs hs c hc
    simp only [exLP, exLPDom] at hs
    split at hs
    · simp only [Except.ok.injEq] at hs
      subst hs
      obtain ⟨o, _, rfl⟩ := List.mem_map.mp hc
      exact ⟨_, _, rfl⟩
    · simp only [Except.ok.injEq] at hs
      subst hs
      simp at hc
  · intro s hs _
    have hs' : s = "block" ∨ s = "object" := by
      simp only [exLP, List.mem_cons, List.not_mem_nil, or_false] at hs
      exact hs.symm
    refine ⟨objs.map fun o => .const (.str o) "block", by simp only [exLP, exLPDom]; rw [if_pos hs'], ?_⟩
    intro n
    rw [exLP_under]
    simp only [List.mem_map, Term.const.injEq, hs', and_true]
    constructor
    · rintro ⟨so, o, ho, rfl, _⟩; exact ⟨o, ho, rfl⟩
    · rintro ⟨o, ho, rfl⟩; exact ⟨"block", o, ho, rfl, rfl⟩

/-- `mark(?x)`: adds `q(?x)`. -/
def markAct : Schema := ⟨[⟨"?x", "object"⟩], .top, [.add .top (.user "q") [.var ⟨"?x", "object"⟩]]⟩

/-- One object with a capital letter. -/
def capsLP : LPInput := exLP ["B1"] [] [("mark", markAct)] .top

/-- From an empty initial state, an action without precondition that adds one atom. -/
theorem reach_one {X : LPInput} (R : CmpRel) {n ps p ts} (hi : X.initAtoms = [])
    (hm : (n, ⟨ps, .top, [.add .top (.user p) ts]⟩) ∈ X.actions) (σ : Asg String) (ht : ∀ v ∈ ps, OfSort X.dom v.sort (σ v)) :
    PReach X R (fun q as => q = p ∧ as = evalTs (stateInterp X.dom R fun _ _ => False) ts σ) := by
  refine .step (fun _ _ => False) _ n _ σ (.init _ ?_) hm ⟨ht, by simp [Sat]⟩ ?_
  · simp [hi]
  · intro q as
    constructor
    · rintro ⟨rfl, rfl⟩
      exact .inl ⟨_, List.mem_singleton.mpr rfl, .add _ q ts σ rfl (by simp [Sat])⟩
    · rintro (⟨e, he, hc⟩ | ⟨h, _⟩)
      · simp only [List.mem_singleton] at he
        subst he
        cases hc
        exact ⟨rfl, rfl⟩
      · exact h.elim

def capsRules : List LPRule :=
  [⟨.pred (.type "block") ["b1"], []⟩,
   ⟨.pred (.type "object") ["X"], [.pred (.type "block") ["X"]]⟩,
   ⟨.pred (.action "mark") ["X"], [.pred (.type "object") ["X"]]⟩,
   ⟨.pred (.atom "q") ["X"], [.pred (.action "mark") ["X"]]⟩,
   ⟨.pred .goal [], []⟩]

theorem capsLP_create : createLP capsLP id true false = .ok ⟨0, capsRules⟩ := by
  rfl

theorem isAspVar_b1 : isAspVar "b1" = false := by decide

/-- The code violates C47: the type facts are written with an object name in lower case (`type_block(b1)`), so `q(B1)`,
which `mark(B1)` makes true, is not derived. -/
theorem C47_refuted : ¬ C47_full := by
  intro H
  have hr := reach_one (X := capsLP) eqCmpRel (n := "mark") (ps := [⟨"?x", "object"⟩]) (p := "q")
    (ts := [.var ⟨"?x", "object"⟩]) rfl (by simp [capsLP, exLP, markAct]) (fun _ => "B1") (by
      intro v hv
      simp only [List.mem_singleton] at hv
      subst hv
      exact ⟨[.const (.str "B1") "block"], .str "B1", "block", rfl, by simp, rfl⟩)
  have hd := (H capsLP eqCmpRel id true false _ exLP_doms (fun _ => .refl _) capsLP_create _ hr).1 "q" ["B1"]
    ⟨rfl, by simp [evalTs, evalT]⟩
  have hm : IsModel eqCmpRel capsRules (fun s as => s = .goal ∨ as = ["b1"]) := by
    intro r hr θ s args hh hb
    simp only [capsRules, List.mem_cons, List.not_mem_nil, or_false] at hr
    rcases hr with rfl | rfl | rfl | rfl | rfl <;> cases hh
    · simp [lpInst, isAspVar_b1]
    · simpa [LitTrue, lpInst, isAspVar_X] using hb
    · simpa [LitTrue, lpInst, isAspVar_X] using hb
    · simpa [LitTrue, lpInst, isAspVar_X] using hb
    · simp
  have := lpDer_least hm hd
  simp at this

/-- `link(?aB, ?Ab)`: adds `r(?aB, ?Ab)`; both parameters are called `Ab` in the program. -/
def linkAct : Schema := ⟨[⟨"?aB", "object"⟩, ⟨"?Ab", "object"⟩], .top,
  [.add .top (.user "r") [.var ⟨"?aB", "object"⟩, .var ⟨"?Ab", "object"⟩]]⟩

def linkLP : LPInput := exLP ["a", "b"] [] [("link", linkAct)] .top

def linkRules : List LPRule :=
  [⟨.pred (.type "block") ["a"], []⟩, ⟨.pred (.type "block") ["b"], []⟩,
   ⟨.pred (.type "object") ["X"], [.pred (.type "block") ["X"]]⟩,
   ⟨.pred (.action "link") ["Ab", "Ab"], [.pred (.type "object") ["Ab"], .pred (.type "object") ["Ab"]]⟩,
   ⟨.pred (.atom "r") ["Ab", "Ab"], [.pred (.action "link") ["Ab", "Ab"]]⟩,
   ⟨.pred .goal [], []⟩]

theorem linkLP_create : createLP linkLP id true false = .ok ⟨0, linkRules⟩ := by
  rfl

/-- The code violates C47 with ordinary object names: two parameters whose names differ only in the case of a letter
become one variable, and only `r(a, a)` and `r(b, b)` are derived. -/
theorem C47_variables_refuted : ¬ C47_full := by
  intro H
  have hr := reach_one (X := linkLP) eqCmpRel (n := "link") (ps := [⟨"?aB", "object"⟩, ⟨"?Ab", "object"⟩]) (p := "r")
    (ts := [.var ⟨"?aB", "object"⟩, .var ⟨"?Ab", "object"⟩]) rfl (by simp [linkLP, exLP, linkAct])
    (fun v => if v.sym = "?aB" then "a" else "b") (by
      intro v hv
      simp only [List.mem_cons, List.not_mem_nil, or_false] at hv
      rcases hv with rfl | rfl
      · exact ⟨[.const (.str "a") "block", .const (.str "b") "block"], .str "a", "block", rfl, by simp, rfl⟩
      · exact ⟨[.const (.str "a") "block", .const (.str "b") "block"], .str "b", "block", rfl, by simp, rfl⟩)
  have hd := (H linkLP eqCmpRel id true false _ exLP_doms (fun _ => .refl _) linkLP_create _ hr).1 "r" ["a", "b"]
    ⟨rfl, by simp [evalTs, evalT]⟩
  have hm : IsModel eqCmpRel linkRules (fun s as => s = .atom "r" → ∃ x, as = [x, x]) := by
    intro r hr θ s args hh hb
    simp only [linkRules, List.mem_cons, List.not_mem_nil, or_false] at hr
    rcases hr with rfl | rfl | rfl | rfl | rfl | rfl <;> cases hh <;> simp
  have := lpDer_least hm hd rfl
  simp at this

/-- `set(?i)` for `?i` in the interval `num`. -/
def numAct : Schema := ⟨[⟨"?i", "num"⟩], .top, [.add .top (.user "q") [.var ⟨"?i", "num"⟩]]⟩

def numLP : LPInput where
  consts := []
  sorts := ["object", "num"]
  interval s := s == "num"
  parent _ := none
  dom s := if s = "num" then .ok [.const (.int 1) "num"] else .ok []
  initAtoms := []
  initFns := []
  costFns := []
  actions := [("set", numAct)]
  goal := .top

def numRules : List LPRule :=
  [⟨.pred (.action "set") ["I"], [.pred (.type "num") ["I"]]⟩,
   ⟨.pred (.atom "q") ["I"], [.pred (.action "set") ["I"]]⟩,
   ⟨.pred .goal [], []⟩]

theorem numLP_create : createLP numLP id true false = .ok ⟨0, numRules⟩ := by
  rfl

/-- The code violates C47 for parameters that range over an interval: its elements get no type facts. -/
theorem C47_interval_refuted : ¬ C47_full := by
  intro H
  have hr := reach_one (X := numLP) eqCmpRel (n := "set") (ps := [⟨"?i", "num"⟩]) (p := "q")
    (ts := [.var ⟨"?i", "num"⟩]) rfl (by simp [numLP, numAct]) (fun _ => "1") (by
      intro v hv
      simp only [List.mem_singleton] at hv
      subst hv
      exact ⟨[.const (.int 1) "num"], .int 1, "num", rfl, by simp, by decide⟩)
  have hdoms : DomsDeclared numLP := by
    refine ⟨?_, ?_⟩
    · intro s cs hs c hc
      simp only [numLP] at hs
      split at hs
      · simp only [Except.ok.injEq] at hs
        subst hs
        simp only [List.mem_singleton] at hc
        exact ⟨_, _, hc⟩
      · simp only [Except.ok.injEq] at hs
        subst hs
        simp at hc
    · intro s _ hi
      have hs : s ≠ "num" := by simpa [numLP] using hi
      refine ⟨[], by simp [numLP, hs], ?_⟩
      intro n
      simp only [List.not_mem_nil, exists_const, false_iff]
      intro hu
      obtain ⟨s, h⟩ := underSort_declared hu
      simp [numLP] at h
  have hd := (H numLP eqCmpRel id true false _ hdoms (fun _ => .refl _) numLP_create _ hr).1 "q" ["1"]
    ⟨rfl, by simp [evalTs, evalT]⟩
  have hm : IsModel eqCmpRel numRules (fun s _ => s = .goal) := by
    intro r hr θ s args hh hb
    simp only [numRules, List.mem_cons, List.not_mem_nil, or_false] at hr
    rcases hr with rfl | rfl | rfl <;> cases hh
    · simpa [LitTrue] using hb
    · simpa [LitTrue] using hb
    · rfl
  have := lpDer_least hm hd
  simp at this

/-! ### The hypotheses can be met -/

/-- A small blocks world: `pick(?x)` needs a block that is clear and under nothing (`forall ?y. not on(?y, ?x)`), or
marked; it makes every block `?z` with `near(?z, ?x)` touched. -/
def pickAct : Schema := ⟨[⟨"?x", "block"⟩],
  .comp .tuple .and [.comp .tuple .or [.atom (.user "clear") [.var ⟨"?x", "block"⟩], .atom (.user "marked") [.var ⟨"?x", "block"⟩]],
    .quant .forall [.var ⟨"?y", "block"⟩] (.comp .tuple .not [.atom (.user "on") [.var ⟨"?y", "block"⟩, .var ⟨"?x", "block"⟩]])],
  [.add .top (.user "held") [.var ⟨"?x", "block"⟩], .del .top (.user "clear") [.var ⟨"?x", "block"⟩],
   .univ .top [⟨"?z", "block"⟩] [.add (.atom (.user "near") [.var ⟨"?z", "block"⟩, .var ⟨"?x", "block"⟩]) (.user "touched")
     [.var ⟨"?z", "block"⟩]]]⟩

def pickLP : LPInput := exLP ["a", "b"] [("clear", [.const (.str "a") "block"]),
    ("near", [.const (.str "b") "block", .const (.str "a") "block"])] [("pick", pickAct)]
  (.quant .exists [.var ⟨"?x", "block"⟩] (.atom (.user "touched") [.var ⟨"?x", "block"⟩]))

def pickScope : Var → Prop := fun v => v = ⟨"?x", "block"⟩ ∨ v = ⟨"?y", "block"⟩ ∨ v = ⟨"?z", "block"⟩

theorem pickLP_wf : LPWellFormed pickLP := by
  have hsc : VarScope pickLP pickScope := by
    refine ⟨?_, ?_, ?_⟩
    · rintro v (rfl | rfl | rfl)
      · exact ⟨"X", rfl, by decide⟩
      · exact ⟨"Y", rfl, by decide⟩
      · exact ⟨"Z", rfl, by decide⟩
    · have h1 : makeVarName "?x" = .ok "X" := rfl
      have h2 : makeVarName "?y" = .ok "Y" := rfl
      have h3 : makeVarName "?z" = .ok "Z" := rfl
      rintro v w (rfl | rfl | rfl) (rfl | rfl | rfl) <;> simp [h1, h2, h3]
    · rintro v (rfl | rfl | rfl) <;> simp [pickLP, exLP]
  have hd := exLP_doms (objs := ["a", "b"]) (init := pickLP.initAtoms) (acts := pickLP.actions) (goal := pickLP.goal)
  refine ⟨?_, hd.1, hd.2, ?_, ?_, ?_⟩
  · intro n s hm
    simp only [pickLP, exLP, List.map_cons, List.map_nil, List.mem_cons, Prod.mk.injEq, List.not_mem_nil, or_false] at hm
    rcases hm with ⟨rfl, _⟩ | ⟨rfl, _⟩
    · exact ⟨"a", rfl, rfl, by decide⟩
    · exact ⟨"b", rfl, rfl, by decide⟩
  · intro p ts hm t ht
    simp only [pickLP, exLP, List.mem_cons, Prod.mk.injEq, List.not_mem_nil, or_false] at hm
    rcases hm with ⟨rfl, rfl⟩ | ⟨rfl, rfl⟩
    · simp only [List.mem_singleton] at ht
      exact ⟨_, _, ht, by decide⟩
    · simp only [List.mem_cons, List.not_mem_nil, or_false] at ht
      rcases ht with rfl | rfl
      · exact ⟨_, _, rfl, by decide⟩
      · exact ⟨_, _, rfl, by decide⟩
  · intro n a hm
    simp only [pickLP, exLP, List.mem_singleton, Prod.mk.injEq] at hm
    obtain ⟨rfl, rfl⟩ := hm
    refine ⟨pickScope, hsc, by simp [pickAct, pickScope], ⟨?_, ?_, ?_⟩, ?_⟩
    · simp [pickAct, FlatF, FlatFs, FlatT, pickScope]
    · simp [pickAct, NoRebind, NoRebinds, BoundF, BoundFs, BoundTs, BoundT]
    · intro v
      simp [pickAct, FreeF, FreeFs, FreeTs, FreeT]
      rintro (rfl | ⟨rfl | rfl, h⟩)
      · rfl
      · simp at h
      · rfl
    · intro e he
      simp only [pickAct, List.mem_cons, List.not_mem_nil, or_false] at he
      rcases he with rfl | rfl | rfl
      · exact ⟨⟨trivial, trivial, by simp [FreeF]⟩, by simp [FlatT, pickScope], by simp [pickAct]⟩
      · trivial
      · refine ⟨by simp [pickScope], ?_⟩
        intro c p ts hm
        simp only [List.mem_singleton, Effect.add.injEq] at hm
        obtain ⟨rfl, rfl, rfl⟩ := hm
        refine ⟨⟨⟨by simp [FlatF, FlatT, pickScope], trivial, ?_⟩, by simp [FlatT, pickScope], by simp [pickAct]⟩, ?_⟩
        · intro v
          simp [pickAct, FreeF, FreeTs, FreeT, eq_comm]
          tauto
        · simp [BoundF, BoundTs, BoundT]
  · refine ⟨pickScope, hsc, ⟨?_, ?_, ?_⟩⟩
    · simp [pickLP, exLP, FlatF, FlatT, pickScope]
    · simp [pickLP, exLP, NoRebind, BoundF, BoundTs, BoundT]
    · intro v
      simp [pickLP, exLP, FreeF, FreeTs, FreeT, eq_comm]

/-- The program for the small blocks world is created, with one auxiliary symbol for the disjunction and one for the
existential goal; a disjunctive precondition, a universal precondition and a universal effect are compiled. -/
example : ∃ st, createLP pickLP id true false = .ok st ∧ st.count = 2 ∧ st.rules.length = 13 ∧
    (⟨.pred (.atom "touched") ["b"], [.pred (.action "pick") ["X"], .pred (.atom "near") ["b", "X"]]⟩ : LPRule) ∈ st.rules := by
  refine ⟨_, rfl, rfl, rfl, ?_⟩
  decide

end Tarski

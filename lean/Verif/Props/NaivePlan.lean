import Verif.NaivePlan
import Verif.Props.Grounding
import Verif.Props.TaskPlan
import Mathlib.Data.List.Perm.Basic
import Mathlib.Data.List.Pairwise
import Mathlib.Data.List.Nodup
/-! C120: naive grounding and reachability grounding give the same plans. -/
namespace Tarski

section
variable {X : LPInput} {L : MLang} {consts : Name → Option Const} {init : MState} {acts : List (String × PAction)}

/-! ### Lemmas -/

/-- The domains of the sorts of parameters consist of declared constants. -/
def DeclaredDoms (X : LPInput) : Prop :=
  ∀ s ∈ X.sorts, X.interval s = false → ∀ ds, X.dom s = .ok ds → ∀ t ∈ ds, ∃ n so, t = .const n so ∧ (n, so) ∈ X.consts

/-- A tuple of constants is given by an assignment to distinct parameters. -/
theorem tuple_assignment : ∀ {ps : List Var} {cs : List Const}, ps.Nodup → ps.length = cs.length →
    ∃ τ : Asg String, List.Forall₂ (fun v (c : Const) => τ v = nameText c.name) ps cs
  | [], [], _, _ => ⟨fun _ => "", .nil⟩
  | [], _ :: _, _, h => by simp at h
  | _ :: _, [], _, h => by simp at h
  | v :: ps, c :: cs, hn, hl => by
    obtain ⟨hv, hn⟩ := List.nodup_cons.1 hn
    obtain ⟨τ, hτ⟩ := tuple_assignment hn (by simpa using hl)
    refine ⟨fun w => if w = v then nameText c.name else τ w, .cons (by simp) ?_⟩
    refine List.forall₂_iff_get.2 ⟨hτ.length_eq, fun i h1 h2 => ?_⟩
    have := (List.forall₂_iff_get.1 hτ).2 i h1 h2
    have hne : ps.get ⟨i, h1⟩ ≠ v := fun e => hv (e ▸ List.get_mem ps ⟨i, h1⟩)
    simpa only [if_neg hne] using this

/-- The tuples of the naive strategy are what `Binds` describes. -/
theorem naive_tuple (T : StripsTask X L consts init acts) (W : LPWellFormed X) (hd : DeclaredDoms X) {x : String × PAction} (hx : x ∈ acts)
    (t : List Term) : WellSorted X.dom t (x.2.params.map Var.sort) ↔
      ∃ (cs : List Const) (τ : Asg String), t = cs.map Const.toTerm ∧ Binds X x.2.params cs τ := by
  have key : ∀ ps : List Var, (∀ v ∈ ps, v.sort ∈ X.sorts ∧ X.interval v.sort = false) → ∀ t : List Term,
      WellSorted X.dom t (ps.map Var.sort) ↔
      ∃ cs : List Const, t = cs.map Const.toTerm ∧ List.Forall₂ (fun v (c : Const) => DeclaredIn X c ∧ UnderSort X c.name v.sort) ps cs := by
    intro ps
    induction ps with
    | nil =>
      intro _ t
      constructor
      · intro h
        cases h
        exact ⟨[], rfl, .nil⟩
      · rintro ⟨cs, rfl, h⟩
        cases h
        exact .nil
    | cons v ps ih =>
      intro hs t
      obtain ⟨h1, h2⟩ := hs v (by simp)
      obtain ⟨ds, e1, e2⟩ := W.doms v.sort h1 h2
      have ih := ih fun w hw => hs w (by simp [hw])
      constructor
      · intro h
        cases h with
        | @cons t0 _ ts _ hh ht =>
          obtain ⟨cs, rfl, hcs⟩ := (ih ts).1 ht
          obtain ⟨d, hd1, hd2⟩ := hh
          rw [e1] at hd1
          cases hd1
          obtain ⟨n, so, rfl, hm⟩ := hd _ h1 h2 ds e1 t0 hd2
          exact ⟨⟨n, so⟩ :: cs, rfl, .cons ⟨hm, (e2 n).1 ⟨so, hd2⟩⟩ hcs⟩
      · rintro ⟨cs, rfl, h⟩
        cases h with
        | @cons _ c _ cs hh ht =>
          obtain ⟨so, hso⟩ := (e2 c.name).2 hh.2
          obtain ⟨n, so', e, hm⟩ := hd _ h1 h2 ds e1 _ hso
          cases e
          have : c = ⟨c.name, so⟩ := by
            have a := (T.dict c.name c).2 ⟨rfl, hh.1⟩
            have b := (T.dict c.name ⟨c.name, so⟩).2 ⟨rfl, hm⟩
            rw [a] at b
            exact Option.some.inj b
          refine .cons ⟨ds, e1, ?_⟩ ((ih _).2 ⟨cs, rfl, ht⟩)
          rw [this]
          exact hso
  rw [key _ (T.sorts x hx) t]
  constructor
  · rintro ⟨cs, rfl, h⟩
    obtain ⟨τ, hτ⟩ := tuple_assignment (T.params x hx) h.length_eq
    refine ⟨cs, τ, rfl, ?_⟩
    exact List.forall₂_iff_get.2 ⟨h.length_eq, fun i h1 h2 => ⟨(List.forall₂_iff_get.1 hτ).2 i h1 h2, (List.forall₂_iff_get.1 h).2 i h1 h2⟩⟩
  · rintro ⟨cs, τ, rfl, h⟩
    exact ⟨cs, rfl, h.imp fun _ _ h => h.2⟩

theorem termItem_consts (cs : List Const) : (cs.map Const.toTerm).map termItem = cs.map GItem.const := by
  rw [List.map_map]
  rfl

theorem binds_item (T : StripsTask X L consts init acts) (W : LPWellFormed X) {x : String × PAction} (hx : x ∈ acts) {cs : List Const}
    {τ : Asg String} (h : Binds X x.2.params cs τ) :
    ∃ o, groundPlainFrom consts x.2 ((cs.map Const.toTerm).map termItem) = .ok o ∧ o.op = instOp x.2 cs := by
  rw [termItem_consts]
  have hr : Refers consts (cs.map GItem.const) cs := by
    clear h
    induction cs with
    | nil => exact .nil
    | cons c cs ih => exact .cons (.inl rfl) ih
  obtain ⟨-, h2, h3⟩ := binds_refers T W h
  obtain ⟨o, ho⟩ := (C65_returns consts x.2 (T.params x hx) _).2 ⟨cs, hr, h3, h2⟩
  exact ⟨o, ho, by rw [groundPlainFrom_ok ho hr]; rfl⟩

theorem naiveBindings_ok (a : PAction) : ∀ gs : List (List Term), (∀ g ∈ gs, ∃ o, groundPlainFrom consts a (g.map termItem) = .ok o) →
    ∃ os, naiveBindings consts a gs = .ok os ∧ List.Forall₂ (fun g o => groundPlainFrom consts a (g.map termItem) = .ok o) gs os
  | [], _ => ⟨[], rfl, .nil⟩
  | g :: gs, h => by
    obtain ⟨o, ho⟩ := h g (by simp)
    obtain ⟨os, h1, h2⟩ := naiveBindings_ok a gs fun g' hg => h g' (by simp [hg])
    exact ⟨o :: os, by simp only [naiveBindings, ho, h1], .cons ho h2⟩

theorem naive_mem_left {α β} {P : α → β → Prop} {as : List α} {bs : List β} (h : List.Forall₂ P as bs) {a : α} (ha : a ∈ as) :
    ∃ b ∈ bs, P a b := by
  induction h with
  | nil => simp at ha
  | cons hp _ ih =>
    rcases List.mem_cons.1 ha with rfl | ha
    · exact ⟨_, by simp, hp⟩
    · obtain ⟨b, hb, hp⟩ := ih ha
      exact ⟨b, by simp [hb], hp⟩

theorem naive_mem_right {α β} {P : α → β → Prop} {as : List α} {bs : List β} (h : List.Forall₂ P as bs) {b : β} (hb : b ∈ bs) :
    ∃ a ∈ as, P a b := by
  induction h with
  | nil => simp at hb
  | cons hp _ ih =>
    rcases List.mem_cons.1 hb with rfl | hb
    · exact ⟨_, by simp, hp⟩
    · obtain ⟨a, ha, hp⟩ := ih hb
      exact ⟨a, by simp [ha], hp⟩

/-- The loop succeeds, and gives the operators of all tuples. -/
theorem naiveLoop_ok (T : StripsTask X L consts init acts) (W : LPWellFormed X) (hd : DeclaredDoms X) (hn : (acts.map Prod.fst).Nodup) :
    ∀ (as : List (String × PAction)) (gs : List (String × List (List Term))), (∀ x ∈ as, x ∈ acts) →
    List.Forall₂ (fun (a : String × List String) (g : String × List (List Term)) => g.1 = a.1 ∧ ∀ t, t ∈ g.2 ↔ WellSorted X.dom t a.2)
      (as.map fun x => (x.1, x.2.params.map Var.sort)) gs →
    ∃ ops, naiveLoop consts acts gs = .ok ops ∧ (∀ o ∈ ops, ∃ x ∈ as, ∃ cs τ, Binds X x.2.params cs τ ∧ o.op = instOp x.2 cs) ∧
      ∀ x ∈ as, ∀ cs τ, Binds X x.2.params cs τ → ∃ o ∈ ops, o.op = instOp x.2 cs
  | [], gs, _, h => by
    cases h
    exact ⟨[], rfl, by simp, by simp⟩
  | x :: as, gs, hs, h => by
    cases h with
    | @cons _ g _ gs h1 h2 =>
      obtain ⟨k, g⟩ := g
      obtain ⟨rfl, h1⟩ := h1
      have hx := hs x (by simp)
      obtain ⟨ops, i1, i2, i3⟩ := naiveLoop_ok T W hd hn as gs (fun y hy => hs y (by simp [hy])) h2
      have hg : ∀ t ∈ g, ∃ o, groundPlainFrom consts x.2 (t.map termItem) = .ok o := by
        intro t ht
        obtain ⟨cs, τ, rfl, hb⟩ := (naive_tuple T W hd hx t).1 ((h1 t).1 ht)
        obtain ⟨o, ho, -⟩ := binds_item T W hx hb
        exact ⟨o, ho⟩
      obtain ⟨os, j1, j2⟩ := naiveBindings_ok x.2 g hg
      refine ⟨os ++ ops, by simp only [naiveLoop, getAction_mem hn x hx, j1, i1], ?_, ?_⟩
      · intro o ho
        rcases List.mem_append.1 ho with ho | ho
        · obtain ⟨t, ht, hto⟩ := naive_mem_right j2 ho
          obtain ⟨cs, τ, rfl, hb⟩ := (naive_tuple T W hd hx t).1 ((h1 t).1 ht)
          obtain ⟨o', ho', e⟩ := binds_item T W hx hb
          rw [ho'] at hto
          cases hto
          exact ⟨x, by simp, cs, τ, hb, e⟩
        · obtain ⟨y, hy, r⟩ := i2 o ho
          exact ⟨y, by simp [hy], r⟩
      · intro y hy cs τ hb
        rcases List.mem_cons.1 hy with rfl | hy
        · obtain ⟨o, ho, hto⟩ := naive_mem_left j2 ((h1 _).2 ((naive_tuple T W hd hx _).2 ⟨cs, τ, rfl, hb⟩))
          obtain ⟨o', ho', e⟩ := binds_item T W hx hb
          rw [ho'] at hto
          cases hto
          exact ⟨o, by simp [ho], e⟩
        · obtain ⟨o, ho, e⟩ := i3 y hy cs τ hb
          exact ⟨o, by simp [ho], e⟩

/-- Naive grounding succeeds and gives the instances of the actions with all tuples of objects of the right sorts. -/
theorem naive_ops (T : StripsTask X L consts init acts) (W : LPWellFormed X) (hd : DeclaredDoms X) (hn : (acts.map Prod.fst).Nodup) :
    ∃ ops, naiveOps X.dom consts acts = .ok ops ∧ (∀ o ∈ ops, ∃ x ∈ acts, ∃ cs τ, Binds X x.2.params cs τ ∧ o.op = instOp x.2 cs) ∧
      ∀ x ∈ acts, ∀ cs τ, Binds X x.2.params cs τ → ∃ o ∈ ops, o.op = instOp x.2 cs := by
  obtain ⟨h1, h2⟩ := C40_actions X.dom (acts.map fun x => (x.1, x.2.params.map Var.sort))
  obtain ⟨G, hG⟩ := h1.2 (by
    intro a ha s hs
    obtain ⟨x, hx, rfl⟩ := List.mem_map.1 ha
    obtain ⟨v, hv, rfl⟩ := List.mem_map.1 hs
    obtain ⟨d, hd, -⟩ := W.doms _ (T.sorts x hx v hv).1 (T.sorts x hx v hv).2
    exact ⟨d, hd⟩)
  obtain ⟨ops, e, r⟩ := naiveLoop_ok T W hd hn acts G (fun _ h => h) ((h2 G hG).imp fun _ _ h => ⟨h.1, h.2.1⟩)
  exact ⟨ops, by simp only [naiveOps, hG, e], r⟩

end

/-! ### Two searches -/

/-- The atoms that a model makes true. -/
def stateOf (L : MLang) (m : MState) : PState := fun p as => ∃ pt, m.holds L p pt = true ∧ as = pt.map fun c => nameText c.name

theorem represents_iff {L : MLang} {m : MState} {S : PState} : Represents L m S ↔ S = stateOf L m := by
  constructor
  · intro h
    funext p as
    exact propext (h p as)
  · rintro rfl
    exact fun _ _ => Iff.rfl

section
variable {X : LPInput} {L : MLang} {consts : Name → Option Const} {init : MState} {acts : List (String × PAction)}

theorem same_expanded {e e' : List (MState × Nat)} {P : List (String × List String) → PState → Prop}
    (h2 : ∀ plan S, P plan S → ∃ p ∈ e, Represents L p.1 S ∧ p.2 ≤ plan.length)
    (h3 : ∀ p ∈ e, ∃ plan S, P plan S ∧ plan.length = p.2 ∧ Represents L p.1 S)
    (h4 : e.Pairwise fun p q => ¬ ∃ S, Represents L p.1 S ∧ Represents L q.1 S)
    (h2' : ∀ plan S, P plan S → ∃ p ∈ e', Represents L p.1 S ∧ p.2 ≤ plan.length)
    (h3' : ∀ p ∈ e', ∃ plan S, P plan S ∧ plan.length = p.2 ∧ Represents L p.1 S) :
    ∀ p ∈ e, ∃ q ∈ e', stateOf L q.1 = stateOf L p.1 ∧ q.2 = p.2 := by
  intro p hp
  obtain ⟨plan, S, a1, a2, a3⟩ := h3 p hp
  obtain ⟨q, hq, b1, b2⟩ := h2' plan S a1
  obtain ⟨plan', S', c1, c2, c3⟩ := h3' q hq
  obtain ⟨r, hr, d1, d2⟩ := h2 plan' S' c1
  rw [represents_iff] at a3 b1 c3 d1
  have e1 : r = p := by
    by_contra hne
    haveI : Std.Symm fun p q : MState × Nat => ¬ ∃ S, Represents L p.1 S ∧ Represents L q.1 S :=
      ⟨fun p q h ⟨S, h1, h2⟩ => h ⟨S, h2, h1⟩⟩
    refine h4.forall hr hp hne ⟨S, represents_iff.2 ?_, represents_iff.2 a3⟩
    rw [← d1, c3, ← b1]
  subst e1
  exact ⟨q, hq, by rw [← b1, a3], by omega⟩

theorem expanded_nodup {e : List (MState × Nat)} (h : e.Pairwise fun p q => ¬ ∃ S, Represents L p.1 S ∧ Represents L q.1 S) :
    (e.map fun q => (stateOf L q.1, q.2)).Nodup := by
  refine List.Pairwise.map _ (fun p q h hpq => h ⟨stateOf L p.1, represents_iff.2 rfl, represents_iff.2 ?_⟩) h
  exact (Prod.mk.inj hpq).1

/-- Two lists of operators that both contain the applicable instances of the actions, and only instances, give the same search. -/
theorem search_agree (T : StripsTask X L consts init acts) (W : LPWellFormed X) (R : CmpRel) (ops ops' : List Operator)
    (hs : ∀ o ∈ ops, ∃ x ∈ acts, ∃ cs τ, Binds X x.2.params cs τ ∧ o = instOp x.2 cs)
    (hc : ∀ x ∈ acts, ∀ S, PReach X R S → ∀ τ, (∀ v ∈ x.2.params, OfSort X.dom v.sort (τ v)) → Sat (stateInterp X.dom R S) x.2.pre τ →
      ∀ cs, Binds X x.2.params cs τ → instOp x.2 cs ∈ ops)
    (hs' : ∀ o ∈ ops', ∃ x ∈ acts, ∃ cs τ, Binds X x.2.params cs τ ∧ o = instOp x.2 cs)
    (hc' : ∀ x ∈ acts, ∀ S, PReach X R S → ∀ τ, (∀ v ∈ x.2.params, OfSort X.dom v.sort (τ v)) → Sat (stateInterp X.dom R S) x.2.pre τ →
      ∀ cs, Binds X x.2.params cs τ → instOp x.2 cs ∈ ops')
    (hist : List MOp) (hi : init = MState.empty.run L hist) (N : String → Prop) (K V : Const → Prop)
    (hp : PrintedApart X L init acts N K V) (S₀ : PState) (hS : Represents L init S₀) (max : Int) (hmax : max < 0) :
    ∃ bound, ∀ fuel, bound < fuel → ∃ st st',
      bfs (textSearchModel L X.dom init X.goal ops) max fuel = some (.ok (true, st)) ∧
      bfs (textSearchModel L X.dom init X.goal ops') max fuel = some (.ok (true, st')) ∧
      (st.expanded.map fun q => (stateOf L q.1, q.2)).Perm (st'.expanded.map fun q => (stateOf L q.1, q.2)) ∧
      st.numGoals = st'.numGoals ∧ st.nexpansions = st'.nexpansions := by
  classical
  obtain ⟨b, hb⟩ := search_ops T W R ops hs hc hist hi N K V hp S₀ hS max hmax
  obtain ⟨b', hb'⟩ := search_ops T W R ops' hs' hc' hist hi N K V hp S₀ hS max hmax
  refine ⟨b + b', fun fuel hf => ?_⟩
  obtain ⟨st, h1, -, h2, h3, h4, h5⟩ := hb fuel (by omega)
  obtain ⟨st', h1', -, h2', h3', h4', h5'⟩ := hb' fuel (by omega)
  have hperm : (st.expanded.map fun q => (stateOf L q.1, q.2)).Perm (st'.expanded.map fun q => (stateOf L q.1, q.2)) := by
    refine (List.perm_ext_iff_of_nodup (expanded_nodup h4) (expanded_nodup h4')).2 fun a => ?_
    constructor
    · intro ha
      obtain ⟨p, hp, rfl⟩ := List.mem_map.1 ha
      obtain ⟨q, hq, e1, e2⟩ := same_expanded (P := LiftedRun X R S₀) h2 h3 h4 h2' h3' p hp
      exact List.mem_map.2 ⟨q, hq, by rw [e1, e2]⟩
    · intro ha
      obtain ⟨p, hp, rfl⟩ := List.mem_map.1 ha
      obtain ⟨q, hq, e1, e2⟩ := same_expanded (P := LiftedRun X R S₀) h2' h3' h4' h2 h3 p hp
      exact List.mem_map.2 ⟨q, hq, by rw [e1, e2]⟩
  have hcount : ∀ (o : List Operator) (e : List (MState × Nat)), (∀ p ∈ e, ∃ S, Tracks X L p.1 S) →
      countGoals (textSearchModel L X.dom init X.goal o) e =
      ((e.map fun q => (stateOf L q.1, q.2)).filter fun s => decide (Sat (stateInterp X.dom R s.1) X.goal fun _ => "")).length := by
    intro o e he
    rw [List.filter_map, List.length_map, countGoals]
    refine congrArg List.length (List.filter_congr fun p hp => ?_)
    obtain ⟨S, ht⟩ := he p hp
    obtain ⟨b, e1, e2⟩ := eval_cond T W R ht (fun _ => "") _ T.goal
    have hS : S = stateOf L p.1 := represents_iff.1 ht.same
    rw [hS] at e2
    have e1 : (textSearchModel L X.dom init X.goal o).isGoal p.1 = .ok b := e1
    rw [e1]
    simp only [Function.comp]
    rw [Bool.eq_iff_iff, e2, decide_eq_true_eq]
  obtain ⟨c1, c2⟩ := C27_counts h1
  obtain ⟨d1, d2⟩ := C27_counts h1'
  refine ⟨st, st', h1, h1', hperm, ?_, ?_⟩
  · refine c1.trans (.trans (hcount ops _ h5) (.trans (hperm.filter _).length_eq (.trans (hcount ops' _ h5').symm d1.symm)))
  · rw [c2, d2]
    simpa using hperm.length_eq

end

/-! ### C120 -/

section
variable {p : PProblem} {costFns : List String}

theorem StripsProblem.declaredDoms (S : StripsProblem p costFns) : DeclaredDoms (lpInputOf p costFns) := by
  intro s _ hi ds h t ht
  have hb : p.lang.bounds s = none := by simpa [lpInputOf] using hi
  simp only [lpInputOf, PDecls.listDomain, hb, Except.ok.injEq] at h
  subst h
  obtain ⟨c, hc, rfl⟩ := List.mem_map.1 ht
  exact ⟨c.1, c.2, rfl, (List.mem_filter.1 hc).1⟩

theorem StripsProblem.actionNames (S : StripsProblem p costFns) : (p.actionTable.map Prod.fst).Nodup := by
  have : p.actionTable.map Prod.fst = p.actions.map PAction.name := by simp [PProblem.actionTable, Function.comp_def]
  rw [this]
  exact S.names

/-- C120: naive grounding of a STRIPS problem that the reader of PDDL makes succeeds, and the search with its operators stops without an error, finds a
goal exactly if a plan exists, expands every state a plan leads to, not deeper than the plan is long, and nothing else, and no state twice. -/
theorem C120_naive (S : StripsProblem p costFns) (R : CmpRel) (S₀ : PState) (hS : Represents p.lang.mlang p.init S₀) (max : Int) (hmax : max < 0)
    (g : Formula) (hg : p.goal = some g) :
    ∃ ops, naiveOps p.lang.listDomain p.lang.constTable p.actionTable = .ok ops ∧ ∃ bound, ∀ fuel, bound < fuel →
      ∃ st, bfs (textSearchModel p.lang.mlang p.lang.listDomain p.init g (ops.map (·.op))) max fuel = some (.ok (true, st)) ∧
        (0 < st.numGoals ↔ ∃ plan s σ, LiftedRun (lpInputOf p costFns) R S₀ plan s ∧ Sat (stateInterp p.lang.listDomain R s) g σ) ∧
        (∀ plan s, LiftedRun (lpInputOf p costFns) R S₀ plan s → ∃ q ∈ st.expanded, Represents p.lang.mlang q.1 s ∧ q.2 ≤ plan.length) ∧
        (∀ q ∈ st.expanded, ∃ plan s, LiftedRun (lpInputOf p costFns) R S₀ plan s ∧ plan.length = q.2 ∧ Represents p.lang.mlang q.1 s) ∧
        (st.expanded.Pairwise fun q r => ¬ ∃ s, Represents p.lang.mlang q.1 s ∧ Represents p.lang.mlang r.1 s) := by
  obtain ⟨hist, hi⟩ := S.init
  obtain ⟨ops, ho, hs, hc⟩ := naive_ops S.task S.wellFormed S.declaredDoms S.actionNames
  obtain ⟨bound, hb⟩ := search_ops S.task S.wellFormed R (ops.map (·.op))
    (by
      intro o hm
      obtain ⟨o', ho', rfl⟩ := List.mem_map.1 hm
      exact hs o' ho')
    (by
      intro x hx s hs τ h1 h2 cs h3
      obtain ⟨o, ho, e⟩ := hc x hx cs τ h3
      exact List.mem_map.2 ⟨o, ho, e⟩) hist hi _ _ _ S.printed S₀ hS max hmax
  refine ⟨ops, ho, bound, fun fuel hf => ?_⟩
  obtain ⟨st, h1, h2, h3, h4, h5, -⟩ := hb fuel hf
  have e : (lpInputOf p costFns).goal = g := by
    show p.goal.getD .top = g
    rw [hg]; rfl
  rw [e] at h1 h2
  exact ⟨st, h1, h2, h3, h4, h5⟩

/-- C120: it does not matter for the search which of the two strategies grounds the actions. If reachability grounding raises
ReachabilityLPUnsolvable, the search with the naive operators finds no goal; otherwise its operators are among the naive ones, and both
searches expand the same states at the same depths, as often, and count as many goals. -/
theorem C120_same_search (S : StripsProblem p costFns) (R : CmpRel) (run : SolverRun) (fl : List String)
    (h : SolverRunOf (lpInputOf p costFns) R true false run) (ord : List (List AStr) → List (List AStr)) (hord : ∀ l, (ord l).Perm l)
    (max : Int) (hmax : max < 0) (g : Formula) (hg : p.goal = some g) :
    ∃ nops, naiveOps p.lang.listDomain p.lang.constTable p.actionTable = .ok nops ∧
    ((groundProblemOps run p.lang.constTable p.actionTable ord (newStrategy (lpInputOf p costFns) true fl) = .error .representation ∧
      ∃ bound, ∀ fuel, bound < fuel → ∃ st,
        bfs (textSearchModel p.lang.mlang p.lang.listDomain p.init g (nops.map (·.op))) max fuel = some (.ok (true, st)) ∧ st.numGoals = 0) ∨
    ∃ ops, groundProblemOps run p.lang.constTable p.actionTable ord (newStrategy (lpInputOf p costFns) true fl) = .ok ops ∧
      (∀ o ∈ ops, o.op ∈ nops.map (·.op)) ∧ ∃ bound, ∀ fuel, bound < fuel → ∃ st st',
        bfs (textSearchModel p.lang.mlang p.lang.listDomain p.init g (ops.map (·.op))) max fuel = some (.ok (true, st)) ∧
        bfs (textSearchModel p.lang.mlang p.lang.listDomain p.init g (nops.map (·.op))) max fuel = some (.ok (true, st')) ∧
        (st.expanded.map fun q => (stateOf p.lang.mlang q.1, q.2)).Perm (st'.expanded.map fun q => (stateOf p.lang.mlang q.1, q.2)) ∧
        st.numGoals = st'.numGoals ∧ st.nexpansions = st'.nexpansions) := by
  have hS : Represents p.lang.mlang p.init (stateOf p.lang.mlang p.init) := represents_iff.2 rfl
  obtain ⟨nops, hn, hn1, hn2⟩ := naive_ops S.task S.wellFormed S.declaredDoms S.actionNames
  refine ⟨nops, hn, ?_⟩
  have e : (lpInputOf p costFns).goal = g := by
    show p.goal.getD .top = g
    rw [hg]; rfl
  rcases ground_ops (fl := fl) S.task S.wellFormed R false S.tight h hord with ⟨ops, ho, hsound, hcompl⟩ | ⟨he, hno⟩
  · right
    refine ⟨ops, ho, fun o hm => ?_, ?_⟩
    · obtain ⟨x, hx, cs, τ, hb, hop⟩ := hsound o hm
      obtain ⟨o', ho', hop'⟩ := hn2 x hx cs τ hb
      exact List.mem_map.2 ⟨o', ho', hop'.trans hop.symm⟩
    · obtain ⟨hist, hi⟩ := S.init
      have := search_agree S.task S.wellFormed R (ops.map (·.op)) (nops.map (·.op))
        (by
          intro o hm
          obtain ⟨o', ho', rfl⟩ := List.mem_map.1 hm
          exact hsound o' ho')
        (by
          intro x hx s hs τ h1 h2 cs h3
          obtain ⟨o, ho, e⟩ := hcompl x hx s hs τ h1 h2 cs h3
          exact List.mem_map.2 ⟨o, ho, e⟩)
        (by
          intro o hm
          obtain ⟨o', ho', rfl⟩ := List.mem_map.1 hm
          exact hn1 o' ho')
        (by
          intro x hx s hs τ h1 h2 cs h3
          obtain ⟨o, ho, e⟩ := hn2 x hx cs τ h3
          exact List.mem_map.2 ⟨o, ho, e⟩) hist hi _ _ _ S.printed _ hS max hmax
      rw [e] at this
      exact this
  · left
    refine ⟨he, ?_⟩
    obtain ⟨nops', hn', bound, hb⟩ := C120_naive S R _ hS max hmax g hg
    have hn : naiveOps p.lang.listDomain p.lang.constTable p.actionTable = .ok nops := hn
    rw [hn] at hn'
    cases hn'
    refine ⟨bound, fun fuel hf => ?_⟩
    obtain ⟨st, h1, h2, -⟩ := hb fuel hf
    refine ⟨st, h1, Nat.eq_zero_of_not_pos fun hpos => ?_⟩
    obtain ⟨plan, s, σ, hr, hsat⟩ := h2.1 hpos
    rw [← e] at hsat
    exact hno s (run_reach R hr (tracks_init S.task R hS).2) σ hsat

end

/-! ### Example -/

/-- The problem of the two files of C119: naive grounding gives its only instance. -/
example : ∃ p ops, readProblemFiles false bareLang flipDomText flipInstText = .ok p ∧ StripsProblem p [] ∧
    naiveOps p.lang.listDomain p.lang.constTable p.actionTable = .ok ops ∧ ops.map PlainOp.name = ["flip(b-1)"] :=
  ⟨flipProblem, _, flip_read, flipProblem_strips, rfl, by decide⟩

/-- And the search with it is the one with the operators of the reachability program, and finds a goal. -/
example : ∃ nops ops, naiveOps flipProblem.lang.listDomain flipProblem.lang.constTable flipProblem.actionTable = .ok nops ∧
    groundProblemOps (.ok (hyphenTr, flipLines)) flipProblem.lang.constTable flipProblem.actionTable id
      (newStrategy (lpInputOf flipProblem []) true ["p", "q"]) = .ok ops ∧ ∃ fuel st st' g,
    bfs (textSearchModel flipProblem.lang.mlang flipProblem.lang.listDomain flipProblem.init g (ops.map (·.op))) (-1) fuel = some (.ok (true, st)) ∧
    bfs (textSearchModel flipProblem.lang.mlang flipProblem.lang.listDomain flipProblem.init g (nops.map (·.op))) (-1) fuel = some (.ok (true, st')) ∧
    flipProblem.goal = some g ∧ st.numGoals = st'.numGoals ∧ st.nexpansions = st'.nexpansions := by
  obtain ⟨nops, h1, ⟨h2, -⟩ | ⟨ops, h2, -, b, h3⟩⟩ := C120_same_search flipProblem_strips eqCmpRel _ ["p", "q"] flipProblem_run id (fun _ => .refl _)
    (-1) (by decide) _ rfl
  · have : groundProblemOps (.ok (hyphenTr, flipLines)) flipProblem.lang.constTable flipProblem.actionTable id
      (newStrategy (lpInputOf flipProblem []) true ["p", "q"]) ≠ .error .representation := nofun
    exact absurd h2 this
  · obtain ⟨st, st', g1, g2, -, g3, g4⟩ := h3 (b + 1) (by omega)
    exact ⟨nops, ops, h1, h2, b + 1, st, st', _, g1, g2, rfl, g3, g4⟩

end Tarski

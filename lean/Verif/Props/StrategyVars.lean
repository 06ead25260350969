import Verif.StrategyVars
import Verif.Props.PddlPlan
import Verif.Props.Grounding
import Verif.Props.Effects
/-! C128: the state variables of the naive grounding strategy record all that can change. -/
namespace Tarski

/-! ### Specification (with `LiftedRun` and `Represents` of `Props/Pipeline.lean`) -/

/-- Some action of the problem adds or deletes atoms of the predicate. -/
def ChangesPred (p : PProblem) (q : String) : Prop := ∃ a ∈ p.actions, ∃ ts, .add .top (.user q) ts ∈ a.effs ∨ .del .top (.user q) ts ∈ a.effs

/-- The terms are declared constants of the sorts of the predicate. -/
def PredArgs (D : PDecls) (q : String) (ts : List Term) : Prop :=
  ∃ ss, (q, ss) ∈ D.preds ∧ List.Forall₂ (fun t s => ∃ n so, t = .const n so ∧ (n, so) ∈ D.consts ∧ D.isSub so s = true) ts ss

/-- The atom has a state variable in the index. -/
def HasVar (idx : SymIndex (Sym × List Term)) (q : String) (cs : List Const) : Prop :=
  ∃ i, idx.getIndex (.pred q, cs.map Const.toTerm) = .ok i

/-! ### Proof -/

theorem plain_affected : ∀ es : List Effect, (∀ e ∈ es, PlainEff e) → ∃ ps, affectedEs es = .ok (ps, []) ∧ ∀ q ∈ ps, ∃ n, q = .user n
  | [], _ => ⟨[], rfl, by simp⟩
  | e :: es, h => by
    obtain ⟨ps, h1, h2⟩ := plain_affected es (fun e he => h e (by simp [he]))
    obtain ⟨q, ts, -, rfl | rfl⟩ := h e (by simp)
    · exact ⟨.user q :: ps, by simp [affectedEs, affectedE, h1], by simpa using h2⟩
    · exact ⟨.user q :: ps, by simp [affectedEs, affectedE, h1], by simpa using h2⟩

section
variable {p : PProblem} {costFns : List String}

theorem affectedSyms_plain (P : PlainProblem p costFns) :
    ∃ fl, affectedSyms p = .ok fl ∧ fl.Nodup ∧ ∀ x, x ∈ fl ↔ ∃ q, x = .pred q ∧ ChangesPred p q := by
  have hp : ∀ e ∈ p.actions.flatMap PAction.effs, PlainEff e := by
    intro e he
    obtain ⟨a, ha, he⟩ := List.mem_flatMap.1 he
    exact P.effs a ha e he
  obtain ⟨ps, h1, h2⟩ := plain_affected _ hp
  refine ⟨_, by simp only [affectedSyms, h1]; rfl, List.nodup_dedup _, fun x => ?_⟩
  have hm := (affectedEs_spec _ _ _ h1).1
  rw [List.mem_dedup]
  simp only [List.map_nil, List.append_nil, List.mem_filterMap]
  constructor
  · rintro ⟨q, hq, hx⟩
    obtain ⟨n, rfl⟩ := h2 q hq
    simp only [userSym, Option.some.injEq] at hx
    subst hx
    refine ⟨n, rfl, ?_⟩
    obtain ⟨e, he, hw⟩ := writesAny_iff.1 ((hm n).1 hq)
    obtain ⟨r, ts, -, hr⟩ := hp e he
    obtain ⟨a, ha, he⟩ := List.mem_flatMap.1 he
    rcases hr with rfl | rfl
    · simp only [Effect.Writes] at hw
      have : r = n := by obtain ⟨m, e1, e2⟩ := hw; cases e1; cases e2; rfl
      subst this
      exact ⟨a, ha, ts, .inr he⟩
    · simp only [Effect.Writes] at hw
      have : r = n := by obtain ⟨m, e1, e2⟩ := hw; cases e1; cases e2; rfl
      subst this
      exact ⟨a, ha, ts, .inl he⟩
  · rintro ⟨n, rfl, a, ha, ts, he⟩
    refine ⟨.user n, (hm n).2 (writesAny_iff.2 ?_), rfl⟩
    rcases he with he | he
    · exact ⟨_, List.mem_flatMap.2 ⟨a, ha, he⟩, by simp [Effect.Writes]⟩
    · exact ⟨_, List.mem_flatMap.2 ⟨a, ha, he⟩, by simp [Effect.Writes]⟩

variable (W : WellFormedProblem p) (P : PlainProblem p costFns)

include W in
theorem plain_dom {s : String} (hb : p.lang.bounds s = none) : ∃ d, p.lang.listDomain s = .ok d ∧ d.Nodup ∧
    ∀ t, t ∈ d ↔ ∃ n so, t = .const n so ∧ (n, so) ∈ p.lang.consts ∧ p.lang.isSub so s = true := by
  refine ⟨(p.lang.consts.filter fun c => p.lang.isSub c.2 s).map fun c => Term.const c.1 c.2, by simp only [PDecls.listDomain, hb], ?_, fun t => ?_⟩
  · have hn : (p.lang.consts.map Prod.fst).Nodup := W.lang.constKeys
    refine List.Nodup.map_on ?_ ((List.Nodup.of_map _ hn).filter _)
    intro x _ y _ e
    simp only [Term.const.injEq] at e
    exact Prod.ext e.1 e.2
  · simp only [List.mem_map, List.mem_filter]
    constructor
    · rintro ⟨c, ⟨h1, h2⟩, rfl⟩
      exact ⟨c.1, c.2, rfl, h1, h2⟩
    · rintro ⟨n, so, rfl, h1, h2⟩
      exact ⟨(n, so), ⟨h1, h2⟩, rfl⟩

include W P

omit P in
theorem changes_declared {q : String} (h : ChangesPred p q) : ∃ ss, (q, ss) ∈ p.lang.preds := by
  obtain ⟨a, ha, ts, he⟩ := h
  have hs := (scopedEs_iff _).1 (W.actions a ha).effs
  rcases he with he | he
  · obtain ⟨-, -, ss, h, -⟩ := hs _ he
    exact ⟨ss, h⟩
  · obtain ⟨-, -, ss, h, -⟩ := hs _ he
    exact ⟨ss, h⟩

theorem strategyVars_ok (ign : List String) :
    ∃ idx, strategyVars p ign = .ok idx ∧
      (∀ x ts, (∃ i, idx.getIndex (x, ts) = .ok i) ↔ ∃ q, x = .pred q ∧ q ∉ ign ∧ ChangesPred p q ∧ PredArgs p.lang q ts) ∧
      (∀ x (i : Nat), idx.getIndex x = .ok i ↔ idx.getObject i = .ok x) ∧ ∀ i : Nat, (∃ x, idx.getObject i = .ok x) ↔ i < idx.len := by
  obtain ⟨fl, h1, h2, h3⟩ := affectedSyms_plain P
  have hg : ∀ g ∈ fl.filter (fun s => symIdent s ∉ ign), GoodDoms p.lang.listDomain (symSorts p.lang g) := by
    intro g hg s hs
    obtain ⟨q, rfl, hq⟩ := (h3 g).1 (List.mem_filter.1 hg).1
    obtain ⟨ss, hss⟩ := changes_declared W hq
    simp only [symSorts, dlookup_mem_nodup W.lang.keys.1 hss, Option.getD_some] at hs
    obtain ⟨d, hd, hn, -⟩ := plain_dom W (P.preds _ hss s hs)
    exact ⟨d, hd, hn⟩
  obtain ⟨idx, g1, ⟨g2, g3, g4⟩, -⟩ := C40_state_variables p.lang.listDomain (symSorts p.lang) _ (h2.filter _) hg
  refine ⟨idx, by simp only [strategyVars, strategySyms, h1]; exact g1, fun x ts => ?_, g3, g4⟩
  rw [g2]
  simp only [List.mem_filter, decide_eq_true_eq, h3]
  have args : ∀ {q ss}, (q, ss) ∈ p.lang.preds → (WellSorted p.lang.listDomain ts (symSorts p.lang (.pred q)) ↔ PredArgs p.lang q ts) := by
    intro q ss hss
    have e : symSorts p.lang (.pred q) = ss := by simp only [symSorts, dlookup_mem_nodup W.lang.keys.1 hss, Option.getD_some]
    rw [e]
    have hb := P.preds _ hss
    dsimp only at hb
    constructor
    · intro h
      refine ⟨ss, hss, ?_⟩
      have h' : List.Forall₂ (fun t s => s ∈ ss ∧ InDom p.lang.listDomain t s) ts ss := by
        clear e hss hb
        induction h with
        | nil => exact .nil
        | cons a _ ih => exact .cons ⟨by simp, a⟩ (ih.imp fun _ _ h => ⟨by simp [h.1], h.2⟩)
      refine h'.imp fun t s hts => ?_
      obtain ⟨d, hd, ht⟩ := hts.2
      obtain ⟨d', hd', -, hm⟩ := plain_dom W (hb s hts.1)
      rw [hd] at hd'
      cases hd'
      exact (hm t).1 ht
    · rintro ⟨ss', hss', h⟩
      have : ss' = ss := by
        have := dlookup_mem_nodup W.lang.keys.1 hss'
        rw [dlookup_mem_nodup W.lang.keys.1 hss] at this
        exact (Option.some.inj this).symm
      subst this
      have h' : List.Forall₂ (fun t s => s ∈ ss' ∧ ∃ n so, t = .const n so ∧ (n, so) ∈ p.lang.consts ∧ p.lang.isSub so s = true) ts ss' := by
        clear e hss hb hss'
        induction h with
        | nil => exact .nil
        | cons a _ ih => exact .cons ⟨by simp, a⟩ (ih.imp fun _ _ h => ⟨by simp [h.1], h.2⟩)
      refine h'.imp fun t s hts => ?_
      obtain ⟨d, hd, -, hm⟩ := plain_dom W (hb s hts.1)
      exact ⟨d, hd, (hm t).2 hts.2⟩
  constructor
  · rintro ⟨⟨⟨q, rfl, hq⟩, hi⟩, ht⟩
    obtain ⟨ss, hss⟩ := changes_declared W hq
    exact ⟨q, rfl, hi, hq, (args hss).1 ht⟩
  · rintro ⟨q, rfl, hi, hq, ht⟩
    obtain ⟨ss, hss⟩ := changes_declared W hq
    exact ⟨⟨⟨q, rfl, hq⟩, hi⟩, (args hss).2 ht⟩

/-- What a run does to an atom. -/
theorem run_atoms (T : StripsTask (lpInputOf p costFns) p.lang.mlang p.lang.constTable p.init p.actionTable) (LW : LPWellFormed (lpInputOf p costFns))
    (R : CmpRel) {S S' : PState} {steps : List (String × List String)} (h : LiftedRun (lpInputOf p costFns) R S steps S') (q : String) (as : List String) :
    (¬ ChangesPred p q → (S' q as ↔ S q as)) ∧
      (S' q as → S q as ∨ ∃ cs : List Const, as = cs.map (fun c => nameText c.name) ∧ PredArgs p.lang q (cs.map Const.toTerm)) := by
  induction h with
  | nil S => exact ⟨fun _ => Iff.rfl, .inl⟩
  | cons S S1 S2 n a σ rest ha happ hS _ ih =>
    rw [T.actions] at ha
    obtain ⟨x, hx, e⟩ := List.mem_map.1 ha
    obtain ⟨rfl, rfl⟩ := Prod.mk.inj e
    obtain ⟨b, hb, rfl⟩ := List.mem_map.1 hx
    have hcause : ∀ bo, (∃ e ∈ b.effs, Causes (stateInterp (lpInputOf p costFns).dom R S) bo e σ q as) → ChangesPred p q := by
      rintro bo ⟨e, he, hc⟩
      obtain ⟨r, ts, -, rfl | rfl⟩ := P.effs b hb e he
      · cases hc; exact ⟨b, hb, ts, .inr he⟩
      · cases hc; exact ⟨b, hb, ts, .inl he⟩
    constructor
    · intro hn
      rw [ih.1 hn, hS]
      constructor
      · rintro (h | h)
        · exact absurd (hcause _ h) hn
        · exact h.1
      · intro h
        exact .inr ⟨h, fun h' => hn (hcause _ h')⟩
    · intro h
      rcases ih.2 h with h | h
      · rcases (hS q as).1 h with ⟨e, he, hc⟩ | h
        · right
          dsimp only at he
          have hsc := (scopedEs_iff _).1 (W.actions b hb).effs e he
          obtain ⟨r, ts, hpl, rfl | rfl⟩ := P.effs b hb e he
          · cases hc; contradiction
          · cases hc
            obtain ⟨-, hts, ss, hss, hf⟩ := hsc
            obtain ⟨ht1, -⟩ := happ
            have key : ∀ {ts : List Term} {ss : List String}, (∀ t ∈ ts, PlainArg t) → ScopedTs p.lang (· ∈ b.params) ts →
                List.Forall₂ (fun t s => p.lang.isSub (p.lang.rlang.sortOf t) s = true) ts ss →
                ∃ cs : List Const, evalTs (stateInterp (lpInputOf p costFns).dom R S) ts σ = cs.map (fun c => nameText c.name) ∧
                  List.Forall₂ (fun t s => ∃ n so, t = Term.const n so ∧ (n, so) ∈ p.lang.consts ∧ p.lang.isSub so s = true) (cs.map Const.toTerm) ss := by
              intro ts ss hpl hsc hf
              induction hf with
              | nil => exact ⟨[], rfl, .nil⟩
              | @cons t s ts ss h1 hr ih =>
                obtain ⟨cs, e, hcs⟩ := ih (fun t ht => hpl t (by simp [ht])) hsc.2
                have hp1 := hpl t (by simp)
                have h1' := h1
                rw [plain_sortOf (p := p) hp1] at h1'
                match t, hp1, hsc.1, h1' with
                | .var v, _, hv, h1 =>
                  obtain ⟨ds, n, so, hd, hm, hte⟩ := ht1 v hv
                  obtain ⟨d, hd', -, hmd⟩ := plain_dom W (P.params b hb v hv)
                  obtain ⟨h3, h4⟩ := LW.doms v.sort (by exact (T.sorts (b.name, b) hx v hv).1) (by exact (T.sorts (b.name, b) hx v hv).2)
                  obtain ⟨hds, hu⟩ := h4
                  have hd1 : p.lang.listDomain v.sort = .ok ds := hd
                  have hd2 : p.lang.listDomain v.sort = .ok h3 := hds
                  rw [hd1] at hd' hd2
                  cases hd'
                  cases hd2
                  obtain ⟨n', so', e', hc', -⟩ := (hmd _).1 hm
                  cases e'
                  refine ⟨⟨n, so⟩ :: cs, by simp only [evalTs, evalT, e, List.map_cons, hte], .cons ⟨n, so, rfl, hc', ?_⟩ hcs⟩
                  exact T.sub n so v.sort s hc' ((hu n).1 ⟨so, hm⟩) h1
                | .const n so, hp1, hc, h1 =>
                  refine ⟨⟨n, so⟩ :: cs, by rw [List.map_cons, ← e]; rfl, .cons ⟨n, so, rfl, ?_, h1⟩ hcs⟩
                  rcases hc with hc | ⟨⟨i, rfl⟩, -⟩
                  · exact hc
                  · exact hp1.elim
            obtain ⟨cs, e, hcs⟩ := key hpl hts hf
            exact ⟨cs, e, ss, hss, hcs⟩
        · exact .inl h.1
      · exact .inr h

theorem fact_args {S₀ : PState} (hS : Represents p.lang.mlang p.init S₀) {q : String} {as : List String} (h : S₀ q as) :
    ∃ cs : List Const, as = cs.map (fun c => nameText c.name) ∧ PredArgs p.lang q (cs.map Const.toTerm) := by
  obtain ⟨pt, hp, rfl⟩ := (hS q as).1 h
  obtain ⟨ss, hss, hf⟩ := W.facts q pt hp
  have hb := P.preds _ hss
  dsimp only at hb
  refine ⟨pt, rfl, ss, hss, ?_⟩
  clear hss hp h
  induction hf with
  | nil => exact .nil
  | @cons c s cs ss h1 _ ih =>
    refine .cons ?_ (ih (fun s hs => hb s (by simp [hs])))
    rcases h1 with ⟨h1, h2⟩ | ⟨-, -, h3⟩
    · exact ⟨c.name, c.sort, rfl, h1, h2⟩
    · rw [hb s (by simp)] at h3
      cases h3

end

/-! ### Theorems -/

/-- C128: for problems with STRIPS features that are read from PDDL files, the fluent symbols of the strategy are the predicates that some action changes, and
the static ones the other symbols of the language; ignored names are in neither. -/
theorem C128_symbols {p : PProblem} {costFns : List String} (P : PlainProblem p costFns) (ign : List String) :
    ∃ fl st, strategySyms p ign = .ok (fl, st) ∧ (∀ x, x ∈ fl ↔ ∃ q, x = .pred q ∧ q ∉ ign ∧ ChangesPred p q) ∧
      ∀ x, x ∈ st ↔ symIdent x ∉ ign ∧ ((∃ q ss, x = .pred q ∧ (q, ss) ∈ p.lang.preds ∧ ¬ ChangesPred p q) ∨ ∃ f ss s, x = .fn f ∧ (f, ss, s) ∈ p.lang.funs) := by
  obtain ⟨fl, h1, h2, h3⟩ := affectedSyms_plain P
  refine ⟨_, _, by simp only [strategySyms, h1]; exact rfl, fun x => ?_, fun x => ?_⟩
  · simp only [List.mem_filter, decide_eq_true_eq, h3]
    constructor
    · rintro ⟨⟨q, rfl, h⟩, hi⟩
      exact ⟨q, rfl, hi, h⟩
    · rintro ⟨q, rfl, hi, h⟩
      exact ⟨⟨q, rfl, h⟩, hi⟩
  · simp only [List.mem_filter, decide_eq_true_eq, languageSyms, List.mem_append, List.mem_map, Prod.exists, h3]
    constructor
    · rintro ⟨⟨⟨q, ss, hq, rfl⟩ | ⟨f, ss, s, hf, rfl⟩, hn⟩, hi⟩
      · exact ⟨hi, .inl ⟨q, ss, rfl, hq, fun h => hn ⟨q, rfl, h⟩⟩⟩
      · exact ⟨hi, .inr ⟨f, ss, s, rfl, hf⟩⟩
    · rintro ⟨hi, ⟨q, ss, rfl, hq, hn⟩ | ⟨f, ss, s, rfl, hf⟩⟩
      · refine ⟨⟨.inl ⟨q, ss, hq, rfl⟩, ?_⟩, hi⟩
        rintro ⟨q', e, h⟩
        cases e
        exact hn h
      · refine ⟨⟨.inr ⟨f, ss, s, hf, rfl⟩, ?_⟩, hi⟩
        rintro ⟨q', e, h⟩
        cases e

/-- C128: for any problem, whatever its effects (conditional, universally quantified, on functions): when the collection of the affected symbols answers, the
fluent symbols of the strategy are exactly the declared or undeclared symbols that some effect of some action writes, and the static ones the declared symbols
that none writes; ignored names are in neither. -/
theorem C128_any_problem (p : PProblem) (ign : List String) (fl st : List Sym) (h : strategySyms p ign = .ok (fl, st)) :
    (∀ x, x ∈ fl ↔ symIdent x ∉ ign ∧ ∃ a ∈ p.actions, WritesAny x a.effs) ∧
    ∀ x, x ∈ st ↔ symIdent x ∉ ign ∧ (¬ ∃ a ∈ p.actions, WritesAny x a.effs) ∧
      ((∃ q ss, x = .pred q ∧ (q, ss) ∈ p.lang.preds) ∨ ∃ f ss s, x = .fn f ∧ (f, ss, s) ∈ p.lang.funs) := by
  simp only [strategySyms, affectedSyms] at h
  cases ha : affectedEs (p.actions.flatMap PAction.effs) with
  | error e => simp [ha] at h
  | ok r =>
    obtain ⟨ps, fs⟩ := r
    simp only [ha, Except.ok.injEq, Prod.mk.injEq] at h
    obtain ⟨h1, h2⟩ := h
    obtain ⟨hp, hf⟩ := affectedEs_spec _ ps fs ha
    have hw : ∀ x, WritesAny x (p.actions.flatMap PAction.effs) ↔ ∃ a ∈ p.actions, WritesAny x a.effs := by
      intro x
      simp only [writesAny_iff, List.mem_flatMap]
      constructor
      · rintro ⟨e, ⟨a, k1, k2⟩, k3⟩
        exact ⟨a, k1, e, k2, k3⟩
      · rintro ⟨a, k1, e, k2, k3⟩
        exact ⟨e, ⟨a, k1, k2⟩, k3⟩
    have key : ∀ x, x ∈ (ps.filterMap userSym ++ fs.map Sym.fn).dedup ↔ ∃ a ∈ p.actions, WritesAny x a.effs := by
      intro x
      rw [List.mem_dedup, List.mem_append, List.mem_filterMap, List.mem_map, ← hw]
      cases x with
      | pred q =>
        rw [← hp]
        constructor
        · rintro (⟨y, hy, e⟩ | ⟨y, -, e⟩)
          · cases y with
            | user n => simp only [userSym, Option.some.injEq, Sym.pred.injEq] at e; exact e ▸ hy
            | cmp c => simp [userSym] at e
          · cases e
        · exact fun h => .inl ⟨_, h, rfl⟩
      | fn f =>
        rw [← hf]
        constructor
        · rintro (⟨y, -, e⟩ | ⟨y, hy, e⟩)
          · cases y <;> simp [userSym] at e
          · cases e; exact hy
        · exact fun h => .inr ⟨_, h, rfl⟩
    subst h1 h2
    refine ⟨fun x => ?_, fun x => ?_⟩
    · rw [List.mem_filter, key]
      simp only [decide_eq_true_eq]
      exact And.comm
    · rw [List.mem_filter, List.mem_filter]
      simp only [decide_eq_true_eq, key, languageSyms, List.mem_append, List.mem_map, Prod.exists]
      constructor
      · rintro ⟨⟨⟨q, ss, k, rfl⟩ | ⟨f, ss, s, k, rfl⟩, k2⟩, k3⟩
        · exact ⟨k3, k2, .inl ⟨q, ss, rfl, k⟩⟩
        · exact ⟨k3, k2, .inr ⟨f, ss, s, rfl, k⟩⟩
      · rintro ⟨k3, k2, ⟨q, ss, rfl, k⟩ | ⟨f, ss, s, rfl, k⟩⟩
        · exact ⟨⟨.inl ⟨q, ss, k, rfl⟩, k2⟩, k3⟩
        · exact ⟨⟨.inr ⟨f, ss, s, k, rfl⟩, k2⟩, k3⟩

/-- C128: the state variables are the atoms of the fluent symbols over the constants of the right sorts, numbered without gaps; in every state that the actions
lead to, every atom that has another truth value than at first, and whose symbol is not ignored, has a state variable; the static symbols have the denotation
they had at first; and when no symbol is ignored, a reachable state is given by the values of its state variables. -/
theorem C128_files (ci : Bool) (D0 : PDecls) (h1 : D0.sorts = []) (h2 : D0.consts = []) (h3 : D0.preds = []) (h4 : D0.funs = [])
    (dom inst : Text) (p : PProblem) (costFns : List String) (hr : readProblemFiles ci D0 dom inst = .ok p) (P : PlainProblem p costFns) (ign : List String) :
    ∃ idx, strategyVars p ign = .ok idx ∧
      (∀ x ts, (∃ i, idx.getIndex (x, ts) = .ok i) ↔ ∃ q, x = .pred q ∧ q ∉ ign ∧ ChangesPred p q ∧ PredArgs p.lang q ts) ∧
      (∀ x (i : Nat), idx.getIndex x = .ok i ↔ idx.getObject i = .ok x) ∧ (∀ i : Nat, (∃ x, idx.getObject i = .ok x) ↔ i < idx.len) ∧
      ∀ (R : CmpRel) (S₀ : PState), Represents p.lang.mlang p.init S₀ →
        (∀ steps S, LiftedRun (lpInputOf p costFns) R S₀ steps S → ∀ q as,
          (q ∉ ign → ¬ (S q as ↔ S₀ q as) → ∃ cs : List Const, as = cs.map (fun c => nameText c.name) ∧ HasVar idx q cs) ∧
          (∀ fl st, strategySyms p ign = .ok (fl, st) → .pred q ∈ st → (S q as ↔ S₀ q as))) ∧
        (ign = [] → ∀ steps S steps' S', LiftedRun (lpInputOf p costFns) R S₀ steps S → LiftedRun (lpInputOf p costFns) R S₀ steps' S' →
          (∀ q cs, HasVar idx q cs → (S q (cs.map fun c => nameText c.name) ↔ S' q (cs.map fun c => nameText c.name))) → S = S') := by
  have W := C121_wellformed ci D0 h1 h2 h3 h4 dom inst p hr
  have SP := C122_strips ci D0 h1 h2 h3 h4 dom inst p costFns hr P
  obtain ⟨idx, g1, g2, g3, g4⟩ := strategyVars_ok W P ign
  refine ⟨idx, g1, g2, g3, g4, fun R S₀ hS => ?_⟩
  have key : ∀ steps S, LiftedRun (lpInputOf p costFns) R S₀ steps S → ∀ q as, q ∉ ign → ¬ (S q as ↔ S₀ q as) →
      ∃ cs : List Const, as = cs.map (fun c => nameText c.name) ∧ HasVar idx q cs := by
    intro steps S hrun q as hi hne
    obtain ⟨k1, k2⟩ := run_atoms W P SP.task SP.wellFormed R hrun q as
    have hc : ChangesPred p q := by
      by_contra h
      exact hne (k1 h)
    have hargs : ∃ cs : List Const, as = cs.map (fun c => nameText c.name) ∧ PredArgs p.lang q (cs.map Const.toTerm) := by
      by_cases h0 : S₀ q as
      · exact fact_args W P hS h0
      · rcases k2 (by tauto) with h | h
        · exact absurd h h0
        · exact h
    obtain ⟨cs, e, ha⟩ := hargs
    exact ⟨cs, e, (g2 _ _).2 ⟨q, rfl, hi, hc, ha⟩⟩
  refine ⟨fun steps S hrun q as => ⟨key steps S hrun q as, ?_⟩, ?_⟩
  · intro fl st hs hm
    obtain ⟨fl', st', hs', -, hst⟩ := C128_symbols P ign
    rw [hs] at hs'
    cases hs'
    obtain ⟨-, ⟨q', ss, e, -, hn⟩ | ⟨f, ss, s, e, -⟩⟩ := (hst _).1 hm
    · cases e
      exact (run_atoms W P SP.task SP.wellFormed R hrun q as).1 hn
    · cases e
  · rintro rfl steps S steps' S' hrun hrun' hsame
    funext q as
    apply propext
    by_cases h : S q as ↔ S₀ q as
    · by_cases h' : S' q as ↔ S₀ q as
      · exact h.trans h'.symm
      · obtain ⟨cs, rfl, hv⟩ := key _ _ hrun' q as (by simp) h'
        exact hsame q cs hv
    · obtain ⟨cs, rfl, hv⟩ := key _ _ hrun q as (by simp) h
      exact hsame q cs hv

/-! ### Examples -/

/-- The problem of `Props/TaskPlan.lean`: there are two state variables, none of them when both predicates are ignored. -/
example : ∃ p idx, readProblemFiles false bareLang flipDomText flipInstText = .ok p ∧ strategyVars p [] = .ok idx ∧ idx.len = 2 ∧
    HasVar idx "p" [flipObj] ∧ HasVar idx "q" [flipObj] ∧ ∃ idx', strategyVars p ["p", "q"] = .ok idx' ∧ idx'.len = 0 :=
  ⟨flipProblem, _, flip_read, rfl, by decide +kernel, ⟨_, rfl⟩, ⟨_, rfl⟩, _, rfl, by decide +kernel⟩

/-- A problem with an action that changes a function: the function is fluent, and the predicate, which nothing changes, static. -/
example : strategySyms { flipProblem with actions := [⟨"a", [], .top, [.assign .top "f" [] (.const (.int 1) "number")], none⟩] } [] = .ok ([.fn "f"], [.pred "p", .pred "q"]) := by
  decide +kernel

/-- The hypotheses are met, and the atoms of this plan do change. -/
example : PlainProblem flipProblem [] ∧ Represents flipProblem.lang.mlang flipProblem.init flipBefore ∧
    LiftedRun (lpInputOf flipProblem []) eqCmpRel flipBefore [("flip", ["b-1"])] flipAfter ∧ ¬ (flipAfter "p" ["b-1"] ↔ flipBefore "p" ["b-1"]) :=
  ⟨flipProblem_plain, flipProblem_before, flipProblem_plan, by simp [flipAfter, flipBefore]⟩

end Tarski

import Verif.PddlFileLemmas
import Verif.Props.PddlInit
/-! Properties C54 and C55: writing a domain, resp. a problem, to PDDL files and reading them gives the same domain, resp.
problem. -/
namespace Tarski

section
variable {p : PProblem} {dom : List (Name × String)}

theorem distinct_parts {S C P F : List Name} (h : (S ++ C ++ P ++ F).Nodup) :
    S.Nodup ∧ C.Nodup ∧ P.Nodup ∧ F.Nodup ∧ (∀ n ∈ C, n ∉ S) ∧ (∀ n ∈ P, n ∉ S ∧ n ∉ C) ∧ (∀ n ∈ F, n ∉ S ∧ n ∉ C ∧ n ∉ P) := by
  rw [List.nodup_append] at h
  obtain ⟨h1, h2, h3⟩ := h
  rw [List.nodup_append] at h1
  obtain ⟨h4, h5, h6⟩ := h1
  rw [List.nodup_append] at h4
  obtain ⟨h7, h8, h9⟩ := h4
  refine ⟨h7, h8, h5, h2, fun n hn hs => h9 n hs n hn rfl, fun n hn => ⟨fun hs => h6 n ?_ n hn rfl, fun hs => h6 n ?_ n hn rfl⟩,
    fun n hn => ⟨fun hs => h3 n ?_ n hn rfl, fun hs => h3 n ?_ n hn rfl, fun hs => h3 n ?_ n hn rfl⟩⟩ <;> simp [hs]

/-- The language after the domain file. -/
def domLang (D : PDecls) (cs : List (Name × String)) : PDecls := { D with sorts := D.sorts.map widen, consts := cs }

theorem wider_dom {D : PDecls} (hD : OkDecls D) {cs cs' : List (Name × String)} (hc : ∀ c ∈ cs, c ∈ cs')
    (hn : (cs'.map (·.1)).Nodup) : Wider { D with consts := cs } (domLang D cs') :=
  ⟨rfl, rfl, rfl, swiders_widen hD D.sorts [] (by simp), rfl, rfl, hc, hn⟩

theorem userSort_dom {D E : PDecls} (hE : E.sorts = D.sorts.map widen) {s : String} (h : UserSort D s) : E.hasSort s = true := by
  apply hasSort_of_mem
  rcases h with h | ⟨d, hd, h⟩
  · exact .inl h
  · exact .inr ⟨widen d, by rw [hE]; exact List.mem_map.2 ⟨d, hd, rfl⟩, h⟩

theorem bounds_dom {D E : PDecls} (hD : OkDecls D) (hE : E.sorts = D.sorts.map widen) (hn : E.numeric = D.numeric) {s : String}
    (h : D.bounds s = none) : E.bounds s = none := by
  have hw := wider_dom hD (cs := []) (cs' := []) (by simp) (by simp)
  have e : E.bounds s = (domLang D []).bounds s := by
    simp only [PDecls.bounds, PDecls.sort, PDecls.allSorts, hE, hn, domLang]
    rfl
  rw [e]
  rcases hw.bounds s with ⟨_, h2⟩ | ⟨l, u, l', u', h1, _⟩
  · exact h2
  · have h1' : D.bounds s = some (l, u) := h1
    rw [h] at h1'; cases h1'

theorem widen_names (l : List SDecl) : (l.map widen).map (fun d => Name.str d.name) = l.map (fun d => Name.str d.name) := by
  rw [List.map_map]; rfl

theorem nodup_fst {α} {l : List (String × α)} (h : (l.map (fun p => Name.str p.1)).Nodup) : (l.map (·.1)).Nodup := by
  have e : l.map (fun p => Name.str p.1) = (l.map (·.1)).map Name.str := by simp
  rw [e] at h
  exact List.Nodup.of_map _ h

/-- The domain file, written and read. -/
theorem domain_read (h : OkDomain p dom) {rs : List Text} (hrs : rs.Perm p.lang.requirements) :
    ∃ text x dom' as, printDomain p rs dom = .ok text ∧ TextsOf text [x] ∧ dom'.Perm dom ∧
      readDomain p.lang.bare x = .ok ⟨p.domainName, domLang p.lang dom', as⟩ ∧
      List.Forall₂ (fun a a' => SameAction a (costIn p.actions a) a') p.actions as := by
  have hD := h.decls
  have hsub := h.domSub
  have hacts := h.actions
  generalize hDD : p.lang = D at *
  obtain ⟨nS, nC, nP, nF, dC, dP, dF⟩ := distinct_parts hD.distinct
  have hite : D.arithmetic = true → Name.str "ite" ∉ D.sorts.map (fun d => Name.str d.name) ∧ Name.str "ite" ∉ D.consts.map (·.1) ∧
      Name.str "ite" ∉ D.preds.map (fun p => Name.str p.1) ∧ Name.str "ite" ∉ D.funs.map (fun f => Name.str f.1) := by
    intro ha
    have := hD.noIte ha
    simp only [List.mem_append, not_or] at this
    exact ⟨this.1.1.1, this.1.1.2, this.1.2, this.2⟩
  -- requirements and types
  obtain ⟨xr, r1, r2⟩ := requirements_read hD (rs := rs) (fun t ht => hrs.mem_iff.1 ht)
  obtain ⟨xt, t1, t2⟩ := types_read hD
  obtain ⟨E1, hE1⟩ : ∃ E1 : PDecls, E1 = { D.bare with sorts := D.sorts.map widen } := ⟨_, rfl⟩
  rw [← hE1] at t2
  have s1 : E1.sorts = D.sorts.map widen := by rw [hE1]
  have names1 : E1.names = D.sorts.map (fun d => Name.str d.name) := by
    rw [hE1]; simp [PDecls.names, PDecls.bare, widen]
  have num1 : E1.numeric = D.numeric := by rw [hE1]; rfl
  have ar1 : E1.arithmetic = D.arithmetic := by rw [hE1]; rfl
  -- constants
  have hdomN : (dom.map (·.1)).Nodup := by
    have : D.consts.Nodup := List.Nodup.of_map _ nC
    refine List.Nodup.map_on ?_ h.domNodup
    intro a ha b hb hab
    have inj := List.inj_on_of_nodup_map nC
    exact inj (hsub ha) (hsub hb) hab
  obtain ⟨os, xo, dom', o1, o2, o3, o4⟩ := objects_read (E := E1) (cs := dom)
    (by
      intro c hc
      obtain ⟨⟨n, hn, hp⟩, _⟩ := hD.consts c (hsub hc)
      have hm : Name.str n ∈ D.consts.map (·.1) := List.mem_map.2 ⟨c, hsub hc, hn⟩
      refine ⟨n, hn, hp, by rw [names1]; exact dC _ hm, ?_⟩
      rw [ar1]
      rintro ha rfl
      exact (hite ha).2.1 hm)
    (by
      intro c hc
      obtain ⟨_, hu, hb⟩ := hD.consts c (hsub hc)
      exact ⟨(userSort_pddl hD hu).2, userSort_dom s1 hu, bounds_dom hD s1 num1 hb⟩)
    hdomN
  have hdomN' : (dom'.map (·.1)).Nodup := ((o3.map _).nodup_iff).2 hdomN
  -- predicates
  obtain ⟨E2, hE2⟩ : ∃ E2 : PDecls, E2 = { E1 with consts := E1.consts ++ dom' } := ⟨_, rfl⟩
  rw [← hE2] at o4
  have names2 : ∀ n, n ∈ E2.names → n ∈ D.sorts.map (fun d => Name.str d.name) ∨ n ∈ D.consts.map (·.1) := by
    intro n hn
    rw [hE2, hE1] at hn
    simp only [PDecls.names, PDecls.bare, widen_names, List.nil_append, List.map_nil, List.append_nil, List.mem_append] at hn
    rcases hn with hn | hn
    · exact .inl hn
    · obtain ⟨c, hc, rfl⟩ := List.mem_map.1 hn
      exact .inr (List.mem_map.2 ⟨c, hsub (o3.mem_iff.1 hc), rfl⟩)
  have s2 : E2.sorts = D.sorts.map widen := by rw [hE2]; exact s1
  have ar2 : E2.arithmetic = D.arithmetic := by rw [hE2]; exact ar1
  obtain ⟨xp, p1, p2⟩ := preds_read hD D.preds E2 (fun s hs => userSort_dom s2 hs) (fun _ hq => hq)
    (by
      intro q hq hm
      obtain ⟨k1, k2⟩ := dP _ (List.mem_map.2 ⟨q, hq, rfl⟩)
      rcases names2 _ hm with hm | hm
      · exact k1 hm
      · exact k2 hm)
    (by
      rw [ar2]
      intro q hq ha e
      exact (hite ha).2.2.1 (List.mem_map.2 ⟨q, hq, by rw [e]⟩))
    (nodup_fst nP)
  -- functions
  obtain ⟨E3, hE3⟩ : ∃ E3 : PDecls, E3 = { E2 with preds := E2.preds ++ D.preds } := ⟨_, rfl⟩
  rw [← hE3] at p2
  have names3 : ∀ n, n ∈ E3.names → n ∈ E2.names ∨ n ∈ D.preds.map (fun p => Name.str p.1) := by
    intro n hn
    rw [hE3] at hn
    simp only [PDecls.names, List.map_append, List.mem_append] at hn ⊢
    tauto
  have s3 : E3.sorts = D.sorts.map widen := by rw [hE3]; exact s2
  have ar3 : E3.arithmetic = D.arithmetic := by rw [hE3]; exact ar2
  obtain ⟨xf, f1, f2⟩ := funs_read hD D.funs E3 (fun s hs => userSort_dom s3 hs) (fun _ hq => hq)
    (by
      intro q hq hm
      obtain ⟨k1, k2, k3⟩ := dF _ (List.mem_map.2 ⟨q, hq, rfl⟩)
      rcases names3 _ hm with hm | hm
      · rcases names2 _ hm with hm | hm
        · exact k1 hm
        · exact k2 hm
      · exact k3 hm)
    (by
      rw [ar3]
      intro q hq ha e
      exact (hite ha).2.2.2 (List.mem_map.2 ⟨q, hq, by rw [e]⟩))
    (nodup_fst nF)
  have hE4 : ({ E3 with funs := E3.funs ++ D.funs } : PDecls) = domLang D dom' := by
    rw [hE3, hE2, hE1]; simp [PDecls.bare, domLang]
  rw [hE4] at f2
  -- actions
  have hw := wider_dom hD (cs := dom) (cs' := dom') (fun c hc => o3.mem_iff.2 hc) hdomN'
  have hact : ∀ a ∈ p.actions, OkAction (domLang D dom').rlang D.real a := fun a ha => OkAction.mono hw.ext (hacts a ha)
  obtain ⟨ts, xa, a1, a2, a3⟩ := actions_read (D := D) p.actions hact (by
    intro a ha hc
    obtain ⟨t, ht⟩ := Option.ne_none_iff_exists'.1 hc
    have := (hact a ha).cost
    rw [ht] at this
    obtain ⟨_, s, hs, _⟩ := this
    have hs' : dlookup D.funs "total-cost" = some ([], s) := hs
    simp [PDecls.rlang, hs'])
  obtain ⟨as, u1, u2⟩ := uniform_read (E := domLang D dom') (as := p.actions) hact (by
    intro ha
    have ha' : D.arithmetic = true := ha
    simp [PDecls.numeric, domLang, ha'])
  have a4 := structures_read (E := domLang D dom') p.actions xa [] a3 (by simpa using h.actionNames)
  have a5 := textsOf_join (sep := ['\n']) (by simp) blank_nl a2
  rw [flatten_singles] at a5
  have hds : printDerived D p.derived = .ok [] := by rw [h.noDerived]; rfl
  refine ⟨_, _, dom', as, ?_, textOf_domain h.domainName rfl r1 t1 o2
    (by
      have := textsOf_lines (l := D.preds.map printPredDecl) (xs := xp.map (fun x => [x])) (by
        clear p2
        generalize D.preds.map printPredDecl = l at p1
        induction p1 with
        | nil => exact .nil
        | cons h1 _ ih => exact .cons (textOf_single h1) ih)
      rw [flatten_singles] at this
      exact this) (textsOf_lines f1) a5, o3, ?_, u2⟩
  · simp only [printDomain, hDD, a1, hds, o1, joinWith]
  · simp only [readDomain, readSec, secOf, if_true, r2, t2, o4, p2, f2, a4, u1, List.nil_append]

theorem readT_tok_app {L : RLang} {b : Option VBinding} {k : PTok} {f : String} {ts : List Term}
    (h : readT L b (.tok k) = .ok (.term (.app f ts))) : False := by
  cases k with
  | name s =>
    simp only [readT, readObject] at h
    cases hc : L.consts (lowerS s) <;> simp [hc] at h
  | num t =>
    simp only [readT] at h
    cases hc : parseNumber t <;> simp [hc] at h
  | var s =>
    simp only [readT, readVar] at h
    cases b with
    | none => simp at h
    | some b => cases hc : b.get (lowerS s) <;> simp [hc] at h
  | _ => simp [readT] at h

/-- The instance file, written and read after the domain file. -/
theorem instance_read (h : OkProblem p dom) {dom' : List (Name × String)} (hdom : dom'.Perm dom) (as : List PAction) :
    ∃ text x p', printInstance p dom = .ok text ∧ TextsOf text [x] ∧
      readInstance ⟨p.domainName, domLang p.lang dom', as⟩ x = .ok p' ∧ p'.actions = as ∧
      p'.name = p.name ∧ p'.domainName = p.domainName ∧ SameDecls p.lang p'.lang ∧
      (∀ q pt, p'.init.holds p'.lang.mlang q pt = p.init.holds p.lang.mlang q pt) ∧
      (∀ f pt, p'.init.value p'.lang.mlang f pt = p.init.value p.lang.mlang f pt) ∧
      (∃ g g', p.goal = some g ∧ p'.goal = some g' ∧
        ∀ (D : Type) (I : Interp D), EqMeaning I → ∀ (σ τ : Asg D), (Sat I g σ ↔ Sat I g' τ)) ∧
      (∀ (D : Type) (I : Interp D), EqMeaning I → ∀ (σ τ : Asg D),
        p.metric.map (fun m => (m.1, evalT I m.2 σ)) = p'.metric.map (fun m => (m.1, evalT I m.2 τ))) := by
  have hD := h.domain.decls
  have hsub := h.domain.domSub
  have hini := h.init
  have hfac := h.facts
  have hval := h.values
  have hgoal := h.goal
  have hmet := h.metric
  generalize hDD : p.lang = D at *
  obtain ⟨nS, nC, nP, nF, dC, dP, dF⟩ := distinct_parts hD.distinct
  have inj := List.inj_on_of_nodup_map nC
  have nCc : D.consts.Nodup := List.Nodup.of_map _ nC
  -- objects
  obtain ⟨E4, hE4⟩ : ∃ E4, E4 = domLang D dom' := ⟨_, rfl⟩
  have s4 : E4.sorts = D.sorts.map widen := by rw [hE4]; rfl
  have num4 : E4.numeric = D.numeric := by rw [hE4]; rfl
  obtain ⟨os, xo, cs', o1, o2, o3, o4⟩ := objects_read (E := E4) (cs := D.consts.filter (fun c => decide (c ∉ dom)))
    (by
      intro c hc
      obtain ⟨hc1, hc2⟩ := List.mem_filter.1 hc
      obtain ⟨⟨n, hn, hp⟩, _⟩ := hD.consts c hc1
      have hm : Name.str n ∈ D.consts.map (·.1) := List.mem_map.2 ⟨c, hc1, hn⟩
      refine ⟨n, hn, hp, ?_, ?_⟩
      · rw [hE4]
        simp only [PDecls.names, domLang, widen_names, List.mem_append, not_or]
        refine ⟨⟨⟨dC _ hm, ?_⟩, fun hq => (dP _ hq).2 hm⟩, fun hq => (dF _ hq).2.1 hm⟩
        intro hq
        obtain ⟨d, hd, hdn⟩ := List.mem_map.1 hq
        have hd' := hdom.mem_iff.1 hd
        have : d = c := inj (hsub hd') hc1 (hdn.trans hn.symm)
        subst this
        simp [hd'] at hc2
      · rw [hE4]
        rintro ha rfl
        refine hD.noIte ha ?_
        simp only [List.mem_append]
        exact .inl (.inl (.inr hm)))
    (by
      intro c hc
      obtain ⟨_, hu, hb⟩ := hD.consts c (List.mem_filter.1 hc).1
      exact ⟨(userSort_pddl hD hu).2, userSort_dom s4 hu, bounds_dom hD s4 num4 hb⟩)
    (nC.sublist (List.filter_sublist.map _))
  have hperm : (dom' ++ cs').Perm D.consts := by
    refine (hdom.append o3).trans ?_
    rw [List.perm_ext_iff_of_nodup]
    · intro c
      simp only [List.mem_append, List.mem_filter, decide_eq_true_eq]
      constructor
      · rintro (hc | hc)
        · exact hsub hc
        · exact hc.1
      · intro hc
        by_cases hd : c ∈ dom
        · exact .inl hd
        · exact .inr ⟨hc, hd⟩
    · rw [List.nodup_append]
      refine ⟨h.domain.domNodup, nCc.filter _, ?_⟩
      rintro a ha b hb rfl
      simp [ha] at hb
    · exact nCc
  obtain ⟨E5, hE5⟩ : ∃ E5, E5 = domLang D (dom' ++ cs') := ⟨_, rfl⟩
  have hE45 : ({ E4 with consts := E4.consts ++ cs' } : PDecls) = E5 := by rw [hE4, hE5]; rfl
  rw [hE45] at o4
  have nC' : ((dom' ++ cs').map (·.1)).Nodup := ((hperm.map _).nodup_iff).2 nC
  have hw : Wider D E5 := by
    rw [hE5]
    exact wider_dom hD (cs := D.consts) (fun c hc => hperm.mem_iff.2 hc) nC'
  have s5 : E5.sorts = D.sorts.map widen := by rw [hE5]; rfl
  -- initial state
  obtain ⟨ops, hops⟩ := hini
  have hwf : StateWF D.mlang p.init := by rw [hops]; exact stateWF_run ops (stateWF_empty _)
  have hwf5 : StateWF E5.mlang p.init := hw.stateWF hwf
  have hapart : ∀ n, E5.rlang.preds n = none ∨ E5.rlang.funs n = none := by
    intro n
    have e1 : E5.rlang.preds n = dlookup D.preds n := by rw [hE5]; rfl
    have e2 : E5.rlang.funs n = dlookup D.funs n := by rw [hE5]; rfl
    rw [e1, e2, dlookup_none, dlookup_none]
    by_cases hq : n ∈ D.preds.map (·.1)
    · refine .inr fun hf => ?_
      obtain ⟨q, hq', rfl⟩ := List.mem_map.1 hq
      obtain ⟨f, hf, hfq⟩ := List.mem_map.1 hf
      exact (dF _ (List.mem_map.2 ⟨f, hf, rfl⟩)).2.2 (List.mem_map.2 ⟨q, hq', by rw [hfq]⟩)
    · exact .inl hq
  obtain ⟨xi, m', i1, i2, _, i4, i5⟩ := init_read (L := E5.rlang) (contains := E5.contains) (interval := fun s => (E5.bounds s).isSome)
    D.real (m := p.init) hwf5 hapart
    (fun q pt hq => AtomExpressible.mono hw.ext hw.interval (hfac q pt ((hw.holds _ _ _).symm.trans hq)))
    (fun f pt v hv => ValueExpressible.mono hw.ext hw.interval (hval f pt v ((hw.value _ _ _).symm.trans hv)))
    (isSub_refl E5)
  -- goal
  obtain ⟨g, hg, hgok⟩ := hgoal
  have hb0 : ScopeIs none [] := rfl
  obtain ⟨tg, xg, g1, g2, g3⟩ := formula_read (L := E5.rlang) (real := D.real) g hb0 (by simp) (by simp) (OkF.mono hw.ext g hgok)
  -- bounds
  obtain ⟨xb, b1, b2⟩ := bounds_read (E := E5) hD s5
  obtain ⟨E6, hE6⟩ : ∃ E6 : PDecls, E6 = { E5 with sorts := D.sorts } := ⟨_, rfl⟩
  rw [← hE6] at b2
  have hE6' : E6 = { D with consts := dom' ++ cs' } := by rw [hE6, hE5]; rfl
  have hw6 : Wider D E6 := by
    rw [hE6']
    exact ⟨rfl, rfl, rfl, swiders_refl _, rfl, rfl, fun c hc => hperm.mem_iff.2 hc, nC'⟩
  -- metric
  have hmetric : ∃ tm xm mt, printMetric D p.metric = .ok tm ∧ TextsOf tm xm ∧ readMetas E6 none xm = .ok (E6, mt) ∧
      ∀ (D : Type) (I : Interp D), EqMeaning I → ∀ (σ τ : Asg D),
        p.metric.map (fun m => (m.1, evalT I m.2 σ)) = mt.map (fun m => (m.1, evalT I m.2 τ)) := by
    cases hm : p.metric with
    | none => exact ⟨[], [], none, rfl, textsOf_nil, rfl, by intros; rfl⟩
    | some mt =>
      obtain ⟨mn, t⟩ := mt
      obtain ⟨⟨f, ts, hft⟩, hok⟩ := hmet mn t hm
      obtain ⟨s, x, k1, k2, k3⟩ := term_read (L := E6.rlang) (real := D.real) hb0 (by simp) (by simp) t (OkT.mono hw6.ext t hok)
      have km := textOf_colon ['m','e','t','r','i','c'] .metric (by decide) (by decide)
      have hopt : ∃ o k, (if mn then "minimize".toList else "maximize".toList) = o ∧ TextOf o (.tok k) ∧ readOpt k = some mn := by
        cases mn with
        | true => exact ⟨_, _, rfl, textOf_kw ['m','i','n','i','m','i','z','e'] 'm' ['i','n','i','m','i','z','e'] .kMinimize rfl
            (by decide) (by decide) (by decide), rfl⟩
        | false => exact ⟨_, _, rfl, textOf_kw ['m','a','x','i','m','i','z','e'] 'm' ['a','x','i','m','i','z','e'] .kMaximize rfl
            (by decide) (by decide) (by decide), rfl⟩
      obtain ⟨o, k, o1, o2, o3⟩ := hopt
      have kt := textOf_call2 km o2 k2
      have hx : readFunT E6.rlang none x = .ok (.term (pT t)) := by
        cases x with
        | list xs => exact k3
        | tok tk =>
          subst hft
          exact (readT_tok_app (by simpa only [pT] using k3)).elim
      have e : "(:metric ".toList = ['(',':','m','e','t','r','i','c',' '] := rfl
      refine ⟨_, [.list [.tok (.ckw .metric), .tok k, x]], some (mn, pT t), by simp only [printMetric, k1]; rfl, textOf_single ?_, ?_, ?_⟩
      · rw [o1, e]; simpa [joinWith, List.append_assoc] using kt
      · simp [readMetas, secOf, readMetric, o3, hx]
      · intro D' I hI σ τ
        have ha : ScopeAgree ([] : List Var) τ σ := fun v hv => by cases hv
        simp [term_sem I t ha hok]
  obtain ⟨tm, xm, mt, q1, q2, q3, q4⟩ := hmetric
  have hreal : E5.real = D.real := hw.real
  refine ⟨_, _, ⟨p.name, p.domainName, E6, m', some (pF g), as, [], mt⟩, ?_,
    textOf_instance h.name h.domain.domainName rfl rfl o2 (textsOf_lines2 i1) g2 b1 q2, ?_, rfl, rfl, rfl, ?_, ?_, ?_, ?_, q4⟩
  · simp only [printInstance, hDD, o1, hg, printGoal, g1, q1, printInit]
  · have i2' : readInitGo E5.mlang E5.rlang E5.real .empty xi = .ok m' := by rw [hreal]; exact i2
    have hP : domLang D dom' = E4 := hE4.symm
    simp only [readInstance, readSec, secOf, hP, reduceCtorEq, if_false, if_true, o4, i2', g3, b2, q3]
  · rw [hE6']
    exact ⟨rfl, rfl, rfl, rfl, rfl, rfl, hperm⟩
  · intro q pt
    rw [hw6.holds, ← hw.holds, ← hw.holds]
    exact i4 q pt
  · intro f pt
    rw [hw6.value, ← hw.value, ← hw.value]
    exact i5 f pt
  · exact ⟨g, pF g, hg, rfl, fun D' I hI σ τ =>
      (formula_sem I hI g (sc := []) (fun v hv => by cases hv) hgok).symm⟩

end

/-- C54: the domain file that is written for a problem is read as the same domain: the same name, theories, sorts with their
parents, predicates and functions with their signatures, the constants of the domain, and the same actions - whatever the
order in which the requirements are printed. What is missing for the full claim are the domains excluded by `OkDomain`; see
the theorems below. -/
theorem C54_domain_round_trip_partial (p : PProblem) (dom : List (Name × String)) (rs : List Text) (h : OkDomain p dom)
    (hrs : rs.Perm p.lang.requirements) :
    ∃ text P, printDomain p rs dom = .ok text ∧ readDomainText p.lang.bare text = .ok P ∧ SameDomain p dom P := by
  obtain ⟨text, x, dom', as, h1, h2, h3, h4, h5⟩ := domain_read h hrs
  refine ⟨text, ⟨p.domainName, domLang p.lang dom', as⟩, h1, by simp only [readDomainText, readOne_of h2, h4], rfl, rfl, rfl, rfl, ?_, rfl, rfl, h3, h5⟩
  simp only [domLang]
  rfl

/-- C55: the domain and instance files that are written for a problem are read as the same problem: the same names and
language, the same initial state, a goal with the same truth value in every state, the same actions, the same metric. What is
missing for the full claim are the problems excluded by `OkProblem`; see the theorems below. -/
theorem C55_problem_round_trip_partial (p : PProblem) (dom : List (Name × String)) (rs : List Text) (h : OkProblem p dom)
    (hrs : rs.Perm p.lang.requirements) :
    ∃ domain inst p', printDomain p rs dom = .ok domain ∧ printInstance p dom = .ok inst ∧
      readProblem p.lang.bare domain inst = .ok p' ∧ SameProblem p p' := by
  obtain ⟨text, x, dom', as, h1, h2, h3, h4, h5⟩ := domain_read h.domain hrs
  obtain ⟨inst, y, p', i1, i2, i3, i4, i5, i6, i7, i8, i9, i10, i11⟩ := instance_read h h3 as
  refine ⟨text, inst, p', h1, i1, ?_, i5, i6, i7, i8, i9, i10, ?_, i11⟩
  · simp only [readProblem, readDomainText, readOne_of h2, h4, readOne_of i2, i3]
  · rw [i4]; exact h5

/-! ### A problem that meets the hypotheses -/

/-- Places and rooms, and loads between 0 and 10. -/
def exDecls : PDecls where
  equality := true
  arithmetic := true
  special := false
  sorts := [⟨"place", "object", none⟩, ⟨"room", "place", none⟩, ⟨"level", "Integer", some (0, 10)⟩]
  consts := [(.str "r2", "room"), (.str "r1", "room"), (.str "home", "place")]
  preds := [("at", ["place"]), ("free", [])]
  funs := [("load", ["room"], "level"), ("total-cost", [], "level")]

def exProblemOps : List MOp :=
  [.add (.user "at") [.const ⟨.str "r1", "room"⟩],
   .set "load" false [.const ⟨.str "r1", "room"⟩] (.const ⟨.int 3, "level"⟩)]

/-- A problem with two actions, of which only the first one has a cost, and a metric. -/
def exProblem : PProblem where
  name := "Problem-1"
  domainName := "rooms"
  lang := exDecls
  init := MState.empty.run exDecls.mlang exProblemOps
  goal := some (.atom (.user "at") [.const (.str "r2") "room"])
  actions := [⟨"Go", [⟨"x", "room"⟩], .atom (.user "at") [.var ⟨"x", "room"⟩],
      [.add .top (.user "at") [.const (.str "r2") "room"], .del .top (.user "at") [.var ⟨"x", "room"⟩]],
      some (.const (.int 2) "level")⟩,
    ⟨"wait", [], .top, [], none⟩]
  derived := []
  metric := some (true, .app "total-cost" [])

/-- The constant that the action mentions is in the domain, the others are in the instance. -/
def exProblemDom : List (Name × String) := [(.str "r2", "room")]

theorem exProblem_ok : OkProblem exProblem exProblemDom := by
  have pplace : PName "place" := exPName 'p' ['l','a','c','e'] rfl (by decide) (by decide) (by decide) (by decide)
  have proom : PName "room" := exPName 'r' ['o','o','m'] rfl (by decide) (by decide) (by decide) (by decide)
  have plevel : PName "level" := exPName 'l' ['e','v','e','l'] rfl (by decide) (by decide) (by decide) (by decide)
  have pr1 : PName "r1" := exPName 'r' ['1'] rfl (by decide) (by decide) (by decide) (by decide)
  have pr2 : PName "r2" := exPName 'r' ['2'] rfl (by decide) (by decide) (by decide) (by decide)
  have phome : PName "home" := exPName 'h' ['o','m','e'] rfl (by decide) (by decide) (by decide) (by decide)
  have pat : PName "at" := exPName 'a' ['t'] rfl (by decide) (by decide) (by decide) (by decide)
  have pfree : PName "free" := exPName 'f' ['r','e','e'] rfl (by decide) (by decide) (by decide) (by decide)
  have pload : PName "load" := exPName 'l' ['o','a','d'] rfl (by decide) (by decide) (by decide) (by decide)
  have ptc : PName "total-cost" := exPName 't' ['o','t','a','l','-','c','o','s','t'] rfl (by decide) (by decide) (by decide) (by decide)
  have uplace : UserSort exDecls "place" := .inr ⟨⟨"place", "object", none⟩, by simp [exDecls], rfl⟩
  have uroom : UserSort exDecls "room" := .inr ⟨⟨"room", "place", none⟩, by simp [exDecls], rfl⟩
  have ulevel : UserSort exDecls "level" := .inr ⟨⟨"level", "Integer", some (0, 10)⟩, by simp [exDecls], rfl⟩
  have hdecls : OkDecls exDecls := by
    refine ⟨?_, ?_, ?_, ?_, ?_, by decide, by decide, .inl rfl⟩
    · intro d hd
      simp only [exDecls, List.mem_cons, List.not_mem_nil, or_false] at hd
      rcases hd with rfl | rfl | rfl
      exacts [⟨pplace, by decide⟩, ⟨proom, by decide⟩, ⟨plevel, by decide⟩]
    · intro pre d post h
      simp only [exDecls] at h
      match pre, h with
      | [], h =>
        simp only [List.nil_append, List.cons.injEq] at h
        obtain ⟨rfl, _⟩ := h
        exact .inl ⟨rfl, .inl rfl⟩
      | [a], h =>
        simp only [List.cons_append, List.nil_append, List.cons.injEq] at h
        obtain ⟨rfl, rfl, _⟩ := h
        exact .inl ⟨rfl, .inr ⟨⟨"place", "object", none⟩, by simp, rfl⟩⟩
      | [a, b], h =>
        simp only [List.cons_append, List.nil_append, List.cons.injEq] at h
        obtain ⟨rfl, rfl, rfl, _⟩ := h
        exact .inr ⟨rfl, rfl, 0, 10, rfl, by decide, by decide⟩
      | a :: b :: c :: pre, h => simp at h
    · intro c hc
      simp only [exDecls, List.mem_cons, List.not_mem_nil, or_false] at hc
      rcases hc with rfl | rfl | rfl
      exacts [⟨⟨_, rfl, pr2⟩, uroom, by rfl⟩, ⟨⟨_, rfl, pr1⟩, uroom, by rfl⟩, ⟨⟨_, rfl, phome⟩, uplace, by rfl⟩]
    · intro q hq
      simp only [exDecls, List.mem_cons, List.not_mem_nil, or_false] at hq
      rcases hq with rfl | rfl
      · exact ⟨pat, by simpa using uplace⟩
      · exact ⟨pfree, by simp⟩
    · intro f hf
      simp only [exDecls, List.mem_cons, List.not_mem_nil, or_false] at hf
      rcases hf with rfl | rfl
      · exact ⟨pload, by simpa using uroom, ulevel⟩
      · exact ⟨ptc, by simp, ulevel⟩
  have hwf : StateWF exDecls.mlang exProblem.init := stateWF_run exProblemOps (stateWF_empty _)
  refine ⟨⟨⟨by decide, 'r', ['o','o','m','s'], rfl, by decide, by decide⟩, hdecls, ?_, by decide, ?_, by decide, rfl⟩,
    ⟨by decide, 'P', ['r','o','b','l','e','m','-','1'], rfl, by decide, by decide⟩, ⟨exProblemOps, rfl⟩, ?_, ?_, ?_, ?_⟩
  · simp [exProblem, exDecls, exProblemDom]
  · intro a ha
    simp only [exProblem, List.mem_cons, List.not_mem_nil, or_false] at ha
    rcases ha with rfl | rfl
    · refine ⟨⟨by decide, 'G', ['o'], rfl, by decide, by decide⟩, ⟨?_, by decide⟩, ?_, ?_, ?_, ?_⟩
      · intro v hv
        simp only [List.mem_singleton] at hv
        subst hv
        exact ⟨⟨'x', [], rfl, by decide, by simp⟩, .inl proom, by rfl⟩
      · simp only [OkF]
        refine ⟨pat, ["place"], rfl, ?_⟩
        simp only [OkAtom, OkT]
        exact ⟨by simp, by rfl, trivial⟩
      · simp only [OkEs, OkE, OkF, true_and, and_true]
        refine ⟨⟨pat, ["place"], rfl, ?_⟩, ⟨pat, ["place"], rfl, ?_⟩⟩
        · simp only [OkAtom, OkT]
          exact ⟨⟨pr2, rfl⟩, by rfl, trivial⟩
        · simp only [OkAtom, OkT]
          exact ⟨by simp, by rfl, trivial⟩
      · intro e he
        simp only [List.mem_cons, List.not_mem_nil, or_false] at he
        rcases he with rfl | rfl <;> exact trivial
      · exact ⟨rfl, "level", rfl, by rfl, .inr ⟨2, rfl, by rfl, by rfl⟩⟩
    · refine ⟨⟨by decide, 'w', ['a','i','t'], rfl, by decide, by decide⟩, ⟨by simp, by simp⟩, ?_, ?_, by simp, trivial⟩
      · simp only [OkF]
      · simp only [OkEs]
  · intro q pt h
    rw [show exProblem.lang = exDecls from rfl, facts_spec hwf] at h
    have e : exProblem.init.facts = [(["at", "place"], [⟨.str "r1", "room"⟩])] := by rfl
    rw [e] at h
    simp only [List.mem_cons, Prod.mk.injEq, MLang.psig, List.cons.injEq, List.not_mem_nil, or_false] at h
    obtain ⟨⟨rfl, _⟩, rfl⟩ := h
    exact ⟨pat, ["place"], rfl, .cons ⟨.inl ⟨"r1", rfl, pr1, rfl⟩, by rfl⟩ .nil⟩
  · intro f pt v h
    rw [show exProblem.lang = exDecls from rfl, values_spec hwf] at h
    have e : exProblem.init.values = [(["load", "room", "level"], [⟨.str "r1", "room"⟩], ⟨.int 3, "level"⟩)] := by rfl
    rw [e] at h
    simp only [List.mem_cons, Prod.mk.injEq, MLang.fsig, List.cons.injEq, List.not_mem_nil, or_false] at h
    obtain ⟨⟨rfl, _⟩, rfl, rfl⟩ := h
    exact ⟨pload, ["room"], "level", rfl, .cons ⟨.inl ⟨"r1", rfl, pr1, rfl⟩, rfl⟩ .nil, .inr ⟨3, rfl, rfl, by rfl, by rfl⟩, by rfl⟩
  · refine ⟨_, rfl, ?_⟩
    simp only [OkF]
    refine ⟨pat, ["place"], rfl, ?_⟩
    simp only [OkAtom, OkT]
    exact ⟨⟨pr2, rfl⟩, by rfl, trivial⟩
  · intro mn t h
    simp only [exProblem, Option.some.injEq, Prod.mk.injEq] at h
    obtain ⟨rfl, rfl⟩ := h
    refine ⟨⟨_, _, rfl⟩, ?_⟩
    simp only [OkT]
    refine .inr (.inr ⟨ptc, [], "level", rfl, ?_⟩)
    simp only [OkArgs]

/-- The problem, read back: `wait` is now free explicitly. -/
example : ∃ domain inst p', printDomain exProblem exDecls.requirements.reverse exProblemDom = .ok domain ∧
    printInstance exProblem exProblemDom = .ok inst ∧ readProblem exDecls.bare domain inst = .ok p' ∧ SameProblem exProblem p' :=
  C55_problem_round_trip_partial exProblem exProblemDom _ exProblem_ok (List.reverse_perm _)

example : ∃ text P, printDomain exProblem exDecls.requirements.reverse exProblemDom = .ok text ∧
    readDomainText exDecls.bare text = .ok P ∧ SameDomain exProblem exProblemDom P :=
  C54_domain_round_trip_partial exProblem exProblemDom _ exProblem_ok.domain (List.reverse_perm _)

/-! ### Problems for which the round trip fails -/

/-- A problem without actions over the given declarations. -/
def declProblem (D : PDecls) : PProblem := ⟨"p", "d", D, .empty, some .top, [], [], none⟩

/-- The theories of equality and arithmetic, no declarations. -/
def numDecls : PDecls := ⟨true, true, false, [], [], [], []⟩

theorem printObjects_nil : printObjects [] = .ok [] := by
  simp [printObjects, objectNames, objectSorts, sortStrings, lines2, joinWith]

/-- The domain file of such a problem. -/
def declText (D : PDecls) (rs : List Text) : Text :=
  headerText "Domain".toList ++ "(define (domain ".toList ++ "d".toList ++
    ")\n    (:requirements ".toList ++ joinWith [' '] rs ++ ")\n    ".toList ++
    sectionText ":types".toList (printTypes D) ++ "\n\n    ".toList ++
    sectionText ":constants".toList [] ++ "\n\n    ".toList ++
    sectionText ":predicates".toList (joinWith nl8 (D.preds.map printPredDecl)) ++ "\n\n    ".toList ++
    sectionText ":functions".toList (joinWith nl8 (D.funs.map printFunDecl)) ++ "\n\n    ".toList ++
    joinWith ['\n'] [] ++ "\n\n    ".toList ++ joinWith ['\n'] [] ++ "\n)\n".toList

theorem declText_print (D : PDecls) (rs : List Text) : printDomain (declProblem D) rs [] = .ok (declText D rs) := by
  simp only [printDomain, declProblem, printActions, printDerived, printObjects_nil, declText]

set_option maxRecDepth 40000 in
/-- A function with values in `Integer` is printed with the type `int`, which the reader does not know. -/
theorem C54_integer_function_refuted : ∃ text,
    printDomain (declProblem { numDecls with funs := [("f", [], "Integer")] }) [":equality".toList, ":numeric-fluents".toList] [] = .ok text ∧
      readDomainText numDecls text = .error .undefinedVariable := ⟨_, declText_print _ _, rfl⟩

set_option maxRecDepth 40000 in
/-- A function with values in `Real` is printed with the type `number`, which the reader does not know if arithmetic is loaded already. -/
theorem C54_real_function_refuted : ∃ text,
    printDomain (declProblem { numDecls with funs := [("f", [], "Real")] }) [":equality".toList, ":numeric-fluents".toList] [] = .ok text ∧
      readDomainText numDecls text = .error .undefinedVariable := ⟨_, declText_print _ _, rfl⟩

set_option maxRecDepth 40000 in
/-- A sort called `number`, as the reader creates it in the presence of `:action-costs`, is printed in a way that the reader does not accept. -/
theorem C54_number_sort_refuted : ∃ text,
    printDomain (declProblem { numDecls with sorts := [⟨"number", "Real", some (0, 1)⟩] }) [":typing".toList, ":equality".toList] [] = .ok text ∧
      readDomainText numDecls text = .error .syntactic := ⟨_, declText_print _ _, rfl⟩

set_option maxRecDepth 40000 in
/-- A sort below `Natural` becomes one below `Integer`. -/
theorem C54_natural_parent_refuted : ∃ text,
    printDomain (declProblem { numDecls with sorts := [⟨"level", "Natural", some (0, 10)⟩] }) [":typing".toList, ":equality".toList] [] = .ok text ∧
      ∃ P, readDomainText numDecls text = .ok P ∧ P.lang.sorts = [⟨"level", "Integer", some (-2147483647, 2147483647)⟩] := ⟨_, declText_print _ _, _, rfl, rfl⟩

set_option maxRecDepth 40000 in
/-- A sort below `Integer` without bounds becomes an interval. -/
theorem C54_symbolic_integer_refuted : ∃ text,
    printDomain (declProblem { numDecls with sorts := [⟨"sub", "Integer", none⟩] }) [":typing".toList, ":equality".toList] [] = .ok text ∧
      ∃ P, readDomainText numDecls text = .ok P ∧ P.lang.sorts = [⟨"sub", "Integer", some (-2147483647, 2147483647)⟩] := ⟨_, declText_print _ _, _, rfl, rfl⟩

set_option maxRecDepth 40000 in
/-- An interval below another interval becomes a sort without bounds. -/
theorem C54_nested_interval_refuted : ∃ text,
    printDomain (declProblem { numDecls with sorts := [⟨"level", "Integer", some (0, 10)⟩, ⟨"low", "level", some (0, 5)⟩] }) [":typing".toList, ":equality".toList] [] = .ok text ∧
      ∃ P, readDomainText numDecls text = .ok P ∧ P.lang.sorts = [⟨"level", "Integer", some (-2147483647, 2147483647)⟩, ⟨"low", "level", none⟩] := ⟨_, declText_print _ _, _, rfl, rfl⟩

set_option maxRecDepth 40000 in
/-- A sort called `real` is taken for the builtin sort. -/
theorem C54_real_sort_refuted : ∃ text,
    printDomain (declProblem { numDecls with sorts := [⟨"real", "object", none⟩] }) [":typing".toList, ":equality".toList] [] = .ok text ∧
      readDomainText numDecls text = .error .language := ⟨_, declText_print _ _, rfl⟩

set_option maxRecDepth 40000 in
/-- Names lose their case. -/
theorem C54_case_refuted : ∃ text,
    printDomain (declProblem { numDecls with sorts := [⟨"Block", "object", none⟩], preds := [("On", ["Block"])] }) [":typing".toList, ":equality".toList] [] = .ok text ∧
      ∃ P, readDomainText numDecls text = .ok P ∧ P.lang.sorts = [⟨"block", "object", none⟩] ∧ P.lang.preds = [("on", ["block"])] := ⟨_, declText_print _ _, _, rfl, rfl, rfl⟩

set_option maxRecDepth 40000 in
/-- A predicate and a sort whose names differ in case only clash. -/
theorem C54_case_clash_refuted : ∃ text,
    printDomain (declProblem { numDecls with sorts := [⟨"block", "object", none⟩], preds := [("Block", ["block"])] }) [":typing".toList, ":equality".toList] [] = .ok text ∧
      readDomainText numDecls text = .error .language := ⟨_, declText_print _ _, rfl⟩

/-- A constant of a user-defined interval has a number as its name, and the writer fails. -/
theorem C54_interval_constant_refuted :
    printDomain (declProblem { numDecls with sorts := [⟨"level", "Integer", some (0, 10)⟩], consts := [(.int 3, "level")] })
      [] [(.int 3, "level")] = .error .typeError := rfl

/-- A derived predicate is printed, but the reader does not support it. -/
theorem C54_derived_refuted : ∃ text, printDerived numDecls [("above", [⟨"x", "object"⟩], .top)] = .ok [text] ∧
    (readOne text).bind (fun x => readStructures numDecls [] [x]) = .error .notImplemented := ⟨_, rfl, rfl⟩

/-- A problem without a goal cannot be printed. -/
theorem C55_no_goal_refuted : printInstance { declProblem numDecls with goal := none } [] = .error .assertion := by
  simp [printInstance, declProblem, numDecls, printObjects_nil, printGoal]

/-- The instance file of a problem without actions, constants and initial atoms. -/
def declInstText (D : PDecls) : Text :=
  headerText "Instance".toList ++ "(define (problem ".toList ++ "p".toList ++ ")\n    (:domain ".toList ++
    "d".toList ++ ")\n\n    ".toList ++ sectionText ":objects".toList [] ++ "\n\n    ".toList ++
    sectionText ":init".toList [] ++ "\n\n    ".toList ++ sectionText ":goal".toList "(and )".toList ++ "\n\n    \n    ".toList ++
    printBounds D ++ "\n    ".toList ++ [] ++ "\n)\n".toList

theorem declInstText_print (D : PDecls) (h : D.consts = []) : printInstance (declProblem D) [] = .ok (declInstText D) := by
  simp only [printInstance, declProblem, h, List.filter_nil, printObjects_nil, printGoal, printF, printMetric]
  rfl

set_option maxRecDepth 40000 in
/-- The bounds of an interval below `Real` are not printed: it gets those of `Real`. -/
theorem C55_real_bounds_refuted :
    let D : PDecls := { numDecls with sorts := [⟨"share", "Real", some (0, 1)⟩] }
    ∃ domain inst p', printDomain (declProblem D) [":typing".toList, ":equality".toList] [] = .ok domain ∧
      printInstance (declProblem D) [] = .ok inst ∧ readProblem D.bare domain inst = .ok p' ∧
      p'.lang.sorts = [⟨"share", "Real", some (-340282 * 10 ^ 33, 340282 * 10 ^ 33)⟩] :=
  ⟨_, _, _, declText_print _ _, declInstText_print _ rfl, rfl, rfl⟩

/-- A domain with an interval that has no bounds yet and a function with values in it. -/
def levelDomain : PDomain :=
  ⟨"d", { numDecls with sorts := [⟨"level", "Integer", some (-2147483647, 2147483647)⟩], funs := [("f", [], "level")] }, []⟩

/-- An instance with an initial value outside of the bounds it declares. -/
def levelInst : Text :=
  "(define (problem p) (:domain d) (:objects) (:init (= (f) 50)) (:goal (and)) (:bounds (level - int[0..10])))".toList

/-- Reading an instance file in the context of a domain, `/repo/src/tarski/io/fstrips.py` 93-97. -/
def readInstanceText (P : PDomain) (text : Text) : Except Err PProblem := (readOne text).bind (readInstance P)

set_option maxRecDepth 40000 in
/-- The reader checks initial values before it knows the bounds of the sorts: it accepts an initial value outside of them. -/
theorem C55_init_bounds_refuted : ∃ p', readInstanceText levelDomain levelInst = .ok p' ∧
      p'.lang.bounds "level" = some (0, 10) ∧ p'.init.value p'.lang.mlang "f" [] = .ok ⟨.int 50, "level"⟩ :=
  ⟨_, rfl, rfl, rfl⟩

end Tarski

import Mathlib.Tactic.Common
import Verif.Props.PlyActions
/-! C94: durative actions read by the PLY-based PDDL reader. -/
namespace Tarski
open Classical

/-! ### Specification -/

mutual
/-- The condition of a durative action at the start, at the end or during the action. -/
def YDaGD.holdsAt {D} (S : YSem D) (w : YWhen) : YDaGD → (String → D) → Prop
  | .timed w' g, env => w' = w → g.mean S env
  | .and ds, env => YDaGD.holdAt S w ds env
  | .forall toks d, env => rangeOver S .forall (typedVars toks) (d.holdsAt S w) env
def YDaGD.holdAt {D} (S : YSem D) (w : YWhen) : List YDaGD → (String → D) → Prop
  | [], _ => True
  | d :: ds, env => d.holdsAt S w env ∧ YDaGD.holdAt S w ds env
end

mutual
/-- Every predicate of the conditions is declared as one. -/
def YDaGD.PredsOK (L : YLang) : YDaGD → Prop
  | .timed _ g => Tarski.PredsOK L g
  | .and ds => YDaGD.PredsAllOK L ds
  | .forall _ d => d.PredsOK L
def YDaGD.PredsAllOK (L : YLang) : List YDaGD → Prop
  | [] => True
  | d :: ds => d.PredsOK L ∧ YDaGD.PredsAllOK L ds
end

mutual
/-- The effects at the end or at the start, in the order in which they are written; none if they are not only simple effects. -/
def YDaEff.effs (atEnd : Bool) : YDaEff → Option (List YEff)
  | .timed b e => some (if b = atEnd then [e] else [])
  | .timedAnd b es => some (if b = atEnd then es else [])
  | .and ds => YDaEff.allEffs atEnd ds
  | _ => none
def YDaEff.allEffs (atEnd : Bool) : List YDaEff → Option (List YEff)
  | [] => some []
  | d :: ds => match d.effs atEnd, YDaEff.allEffs atEnd ds with
    | some es, some es' => some (es ++ es')
    | _, _ => none
end

/-- The condition that is recorded for a time. -/
def YDurativeData.pre (d : YDurativeData) : YWhen → List Formula
  | .start => d.startPre
  | .end => d.endPre
  | .all => d.overall

/-- The effects that are recorded for a time. -/
def YDurativeData.post (d : YDurativeData) : Bool → List YAssignment
  | true => d.endPost
  | false => d.startPost

/-! ### Proof -/

mutual
theorem readDaGD_scope {L : YLang} (c : YDaGD) (sc : YScope) (v : YVal YWhen Formula) (sc' : YScope) (h : readDaGD L c sc = .ok (v, sc')) : ScopeSub sc' sc := by
  match c with
  | .timed w g =>
    simp only [readDaGD] at h
    split at h
    · cases h
    · rename_i f sc1 hg
      cases h
      exact readGD_scope g sc _ _ hg
  | .and ds =>
    simp only [readDaGD] at h
    split at h
    · cases h
    · rename_i f sc1 hg
      cases h
      exact readDaGDs_scope ds sc _ _ hg
  | .forall toks d =>
    simp only [readDaGD] at h
    split at h <;> cases h
theorem readDaGDs_scope {L : YLang} (cs : List YDaGD) (sc : YScope) (vs : List (YVal YWhen Formula)) (sc' : YScope) (h : readDaGDs L cs sc = .ok (vs, sc')) : ScopeSub sc' sc := by
  match cs with
  | [] => cases h; exact fun _ _ h => h
  | c :: cs =>
    simp only [readDaGDs] at h
    split at h
    · cases h
    · rename_i v sc1 hv
      split at h
      · cases h
      · rename_i vs' sc2 hvs
        cases h
        have h1 := readDaGD_scope c sc _ _ hv
        have h2 := readDaGDs_scope cs sc1 _ _ hvs
        exact fun x w hx => h1 x w (h2 x w hx)
end

/-- The entries of a list of values, if there are only entries. -/
inductive Entries {ω α : Type} : List (YVal ω α) → List (ω × α) → Prop
  | nil : Entries [] []
  | cons (w : ω) (x : α) (vs) (es) : Entries vs es → Entries (.entry w x :: vs) ((w, x) :: es)

theorem addRef_all {D} {I : Interp D} {σ : Asg D} (fs : List Formula) (f : Formula) : (∀ g ∈ addRef fs f, Sat I g σ) ↔ (∀ g ∈ fs, Sat I g σ) ∧ Sat I f σ := by
  unfold addRef
  split
  · rename_i h
    exact ⟨fun h1 => ⟨h1, h1 f h⟩, fun h1 => h1.1⟩
  · simp only [List.mem_append, List.mem_singleton]
    constructor
    · intro h1; exact ⟨fun g hg => h1 g (.inl hg), h1 f (.inr rfl)⟩
    · rintro ⟨h1, h2⟩ g (hg | rfl)
      · exact h1 g hg
      · exact h2

theorem sortConds_sem {D} {I : Interp D} {σ : Asg D} : ∀ (vs : List (YVal YWhen Formula)) (d d' : YDurativeData), sortConds d vs = .ok d' →
    ∃ es, Entries vs es ∧ (∀ w, (∀ f ∈ d'.pre w, Sat I f σ) ↔ (∀ f ∈ d.pre w, Sat I f σ) ∧ ∀ e ∈ es, e.1 = w → Sat I e.2 σ) ∧
      d'.name = d.name ∧ d'.params = d.params ∧ d'.duration = d.duration ∧ d'.post = d.post := by
  intro vs
  induction vs with
  | nil => intro d d' h; cases h; exact ⟨[], .nil, by simp⟩
  | cons v vs ih =>
    intro d d' h
    cases v with
    | list _ => cases h
    | entry w f =>
      have key : ∀ d1 : YDurativeData, sortConds d1 vs = .ok d' → (∀ w', (∀ g ∈ d1.pre w', Sat I g σ) ↔ (∀ g ∈ d.pre w', Sat I g σ) ∧ (w = w' → Sat I f σ)) →
          d1.name = d.name → d1.params = d.params → d1.duration = d.duration → d1.post = d.post →
          ∃ es, Entries (YVal.entry w f :: vs) es ∧ (∀ w, (∀ f ∈ d'.pre w, Sat I f σ) ↔ (∀ f ∈ d.pre w, Sat I f σ) ∧ ∀ e ∈ es, e.1 = w → Sat I e.2 σ) ∧
            d'.name = d.name ∧ d'.params = d.params ∧ d'.duration = d.duration ∧ d'.post = d.post := by
        intro d1 h1 h2 n1 n2 n3 n4
        obtain ⟨es, he, hs, m1, m2, m3, m4⟩ := ih d1 d' h1
        refine ⟨_, .cons w f vs es he, ?_, m1.trans n1, m2.trans n2, m3.trans n3, m4.trans n4⟩
        intro w'
        rw [hs w', h2 w']
        simp only [List.mem_cons, forall_eq_or_imp, and_assoc]
      cases w with
      | start =>
        refine key _ h ?_ rfl rfl rfl rfl
        intro w'
        cases w' <;> simp [YDurativeData.pre, addRef_all]
      | «end» =>
        refine key _ h ?_ rfl rfl rfl rfl
        intro w'
        cases w' <;> simp [YDurativeData.pre, addRef_all]
      | all =>
        refine key _ h ?_ rfl rfl rfl rfl
        intro w'
        cases w' <;> simp [YDurativeData.pre, addRef_all]

theorem readDaGD_entry {L : YLang} {c sc w f sc'} (h : readDaGD L c sc = .ok (.entry w f, sc')) : ∃ g, c = .timed w g ∧ readGD L g sc = .ok (f, sc') := by
  cases c with
  | timed w' g =>
    simp only [readDaGD] at h
    split at h
    · cases h
    · rename_i f' sc1 hg
      cases h
      exact ⟨g, rfl, hg⟩
  | and ds =>
    simp only [readDaGD] at h
    split at h <;> cases h
  | «forall» toks d =>
    simp only [readDaGD] at h
    split at h <;> cases h

theorem readDaGDs_sem {D} {L : YLang} {S : YSem D} {I : Interp D} (hf : YFits L S I) {σ : Asg D} {env : String → D} :
    ∀ (cs : List YDaGD) (sc sc' : YScope) (vs : List (YVal YWhen Formula)) (es : List (YWhen × Formula)), YDaGD.PredsAllOK L cs →
      readDaGDs L cs sc = .ok (vs, sc') → AgreeOn sc σ env → Entries vs es →
      ∀ w, (∀ e ∈ es, e.1 = w → Sat I e.2 σ) ↔ YDaGD.holdAt S w cs env := by
  intro cs
  induction cs with
  | nil => intro sc sc' vs es _ h _ he w; cases h; cases he; simp [YDaGD.holdAt]
  | cons c cs ih =>
    intro sc sc' vs es hp h ha he w
    simp only [YDaGD.PredsAllOK] at hp
    simp only [readDaGDs] at h
    split at h
    · cases h
    · rename_i v sc1 hv
      split at h
      · cases h
      · rename_i vs' sc2 hvs
        cases h
        cases he with
        | cons w' f _ es' he' =>
          have hsub := readDaGD_scope c sc _ _ hv
          obtain ⟨g, rfl, hg⟩ := readDaGD_entry hv
          have h1 := readGD_sem hf g (by simpa only [YDaGD.PredsOK] using hp.1) sc f _ hg σ env ha
          have h2 := ih sc1 _ vs' es' hp.2 hvs (ha.sub hsub) he' w
          simp only [YDaGD.holdAt, YDaGD.holdsAt, List.mem_cons, forall_eq_or_imp, h2, h1]

theorem readDaGD_sem {D} {L : YLang} {S : YSem D} {I : Interp D} (hf : YFits L S I) {σ : Asg D} {env : String → D}
    (c : YDaGD) (sc sc' : YScope) (v : YVal YWhen Formula) (es : List (YWhen × Formula)) (hp : c.PredsOK L)
    (h : readDaGD L c sc = .ok (v, sc')) (ha : AgreeOn sc σ env) (he : Entries v.listed es) (w : YWhen) :
    (∀ e ∈ es, e.1 = w → Sat I e.2 σ) ↔ c.holdsAt S w env := by
  cases c with
  | timed w' g =>
    simp only [readDaGD] at h
    split at h
    · cases h
    · rename_i f sc1 hg
      cases h
      simp only [YVal.listed] at he
      cases he with
      | cons _ _ _ es' he' =>
        cases he'
        have h1 := readGD_sem hf g (by simpa only [YDaGD.PredsOK] using hp) sc f _ hg σ env ha
        simp [YDaGD.holdsAt, h1]
  | and ds =>
    simp only [readDaGD] at h
    split at h
    · cases h
    · rename_i vs sc1 hg
      cases h
      rw [YDaGD.holdsAt]
      exact readDaGDs_sem hf ds sc _ vs es (by simpa only [YDaGD.PredsOK] using hp) hg ha he w
  | «forall» toks d =>
    simp only [readDaGD] at h
    split at h <;> cases h

theorem readYCond_and (L : YLang) (sc : YScope) : ∀ es : List YEff, ∀ r, readYCond L sc true es ≠ .ok r := by
  intro es
  induction es with
  | nil => intro r h; simp [readYCond] at h
  | cons e es ih =>
    intro r h
    simp only [readYCond] at h
    split at h
    · cases h
    · split at h
      · cases h
      · rename_i as has
        exact ih _ has

theorem readDaEff_entry {L : YLang} {sc c b as} (h : readDaEff L sc c = .ok (.entry b as)) : ∃ e a, c = .timed b e ∧ as = [a] ∧ readYEff L sc e = .ok a := by
  cases c with
  | timed b' e =>
    simp only [readDaEff] at h
    split at h
    · cases h
    · rename_i a ha
      cases h
      exact ⟨e, a, rfl, rfl, ha⟩
  | timedAnd b' es =>
    simp only [readDaEff] at h
    split at h
    · cases h
    · rename_i as' has
      exact absurd has (readYCond_and L sc es _)
  | and ds =>
    simp only [readDaEff] at h
    split at h <;> cases h
  | assignDa _ _ _ _ => simp [readDaEff] at h
  | continuous _ _ _ => simp [readDaEff] at h
  | «forall» toks d => simp [readDaEff] at h
  | when c d => simp [readDaEff] at h

theorem sortEffs_ok : ∀ (vs : List (YVal Bool (List YAssignment))) (d d' : YDurativeData), sortEffs d vs = .ok d' →
    ∃ es : List (Bool × List YAssignment), Entries vs es ∧ (∀ b, d'.post b = d.post b ++ (es.filterMap fun e => if e.1 = b then e.2.head? else none)) ∧
      d'.name = d.name ∧ d'.params = d.params ∧ d'.duration = d.duration ∧ d'.pre = d.pre := by
  intro vs
  induction vs with
  | nil => intro d d' h; cases h; exact ⟨[], .nil, by simp⟩
  | cons v vs ih =>
    intro d d' h
    cases v with
    | list _ => cases h
    | entry w as =>
      cases as with
      | nil => cases h
      | cons a as =>
        simp only [sortEffs] at h
        obtain ⟨es, he, hs, m1, m2, m3, m4⟩ := ih _ d' h
        refine ⟨_, .cons w (a :: as) vs es he, ?_, ?_⟩
        · intro b
          rw [hs b]
          cases w <;> cases b <;> simp [YDurativeData.post]
        · cases w
          · exact ⟨m1, m2, m3, m4⟩
          · exact ⟨m1, m2, m3, m4⟩

theorem readDaEffs_sem {D} {L : YLang} {S : YSem D} {I : Interp D} (hf : YFits L S I) {sc σ env} (ha : AgreeOn sc σ env) (b : Bool) :
    ∀ (cs : List YDaEff) (vs : List (YVal Bool (List YAssignment))) (es : List (Bool × List YAssignment)),
      readDaEffs L sc cs = .ok vs → Entries vs es →
      ∃ effs, YDaEff.allEffs b cs = some effs ∧ ((∀ e ∈ effs, e.Plain) →
        (es.filterMap fun e => if e.1 = b then e.2.head? else none).map (·.update I σ) = effs.map (·.update S env) ∧ ∀ e ∈ effs, (e.update S env).isSome = true) := by
  intro cs
  induction cs with
  | nil => intro vs es h he; cases h; cases he; exact ⟨[], rfl, by simp⟩
  | cons c cs ih =>
    intro vs es h he
    simp only [readDaEffs] at h
    split at h
    · cases h
    · rename_i v hv
      split at h
      · cases h
      · rename_i vs' hvs
        cases h
        cases he with
        | cons w as _ es' he' =>
          obtain ⟨e, a, rfl, rfl, hr⟩ := readDaEff_entry hv
          obtain ⟨effs, h1, h2⟩ := ih vs' es' hvs he'
          refine ⟨(if w = b then [e] else []) ++ effs, by simp only [YDaEff.allEffs, YDaEff.effs, h1], ?_⟩
          intro hp
          obtain ⟨h3, h4⟩ := h2 fun e he => hp e (by simp [he])
          by_cases hw : w = b
          · obtain ⟨h5, h6⟩ := readYEff_sem hf ha e (hp e (by simp [hw])) a hr
            simp only [hw, if_true, List.singleton_append, List.map_cons, ← h3, List.mem_cons, forall_eq_or_imp, h6, true_and]
            refine ⟨?_, h4⟩
            simp [h5]
          · simp only [hw, if_false, List.nil_append, ← h3]
            refine ⟨?_, h4⟩
            simp [hw]

theorem readDaEff_sem {D} {L : YLang} {S : YSem D} {I : Interp D} (hf : YFits L S I) {sc σ env} (ha : AgreeOn sc σ env) (b : Bool)
    (c : YDaEff) (v : YVal Bool (List YAssignment)) (es : List (Bool × List YAssignment)) (h : readDaEff L sc c = .ok v) (he : Entries v.listed es) :
    ∃ effs, c.effs b = some effs ∧ ((∀ e ∈ effs, e.Plain) →
      (es.filterMap fun e => if e.1 = b then e.2.head? else none).map (·.update I σ) = effs.map (·.update S env) ∧ ∀ e ∈ effs, (e.update S env).isSome = true) := by
  cases v with
  | entry w as =>
    obtain ⟨e, a, rfl, rfl, hr⟩ := readDaEff_entry h
    obtain ⟨effs, h1, h2⟩ := readDaEffs_sem hf ha b [.timed w e] [.entry w [a]] es (by simp only [readDaEffs, h]) he
    refine ⟨effs, ?_, h2⟩
    rw [← h1]
    simp [YDaEff.allEffs, YDaEff.effs]
  | list vs =>
    cases c with
    | and ds =>
      simp only [readDaEff] at h
      split at h
      · cases h
      · rename_i vs' hvs
        cases h
        rw [YDaEff.effs]
        exact readDaEffs_sem hf ha b ds vs es hvs he
    | timed b' e =>
      simp only [readDaEff] at h
      split at h <;> cases h
    | timedAnd b' es =>
      simp only [readDaEff] at h
      split at h <;> cases h
    | assignDa _ _ _ _ => simp [readDaEff] at h
    | continuous _ _ _ => simp [readDaEff] at h
    | «forall» toks d => simp [readDaEff] at h
    | when c d => simp [readDaEff] at h

theorem readDuration_ok {L : YLang} {sc d r} (h : readDuration L sc d = .ok r) :
    (d = .empty ∧ r = none) ∨ ∃ e t, d = .simple .eq "?duration" e ∧ r = some t ∧ readYExp L sc e = .ok t := by
  cases d with
  | empty => simp only [readDuration] at h; cases h; exact .inl ⟨rfl, rfl⟩
  | simple op v e =>
    simp only [readDuration] at h
    split at h
    · cases h
    · rename_i t ht
      split at h
      · cases h
      · rename_i ho
        split at h
        · cases h
        · rename_i hv
          cases h
          simp only [ne_eq, not_not] at ho hv
          subst ho; subst hv
          exact .inr ⟨e, t, rfl, rfl, ht⟩
  | and ds =>
    simp only [readDuration] at h
    split at h <;> cases h
  | «at» w d =>
    simp only [readDuration] at h
    split at h <;> cases h

theorem readDurative_ok {L : YLang} {sc a d sc'} (h : readDurative L sc a = .ok (d, sc')) : ∃ dur c cv sc1 e ev d1,
    normalizeVars L [] a.params = .ok d.params ∧ readDuration L (enterScope sc d.params) a.duration = .ok dur ∧ a.cond = some c ∧
    readDaGD L c (enterScope sc d.params) = .ok (cv, sc1) ∧ a.eff = some e ∧ readDaEff L sc1 e = .ok ev ∧
    sortConds { name := a.name, params := d.params, duration := dur } cv.listed = .ok d1 ∧ sortEffs d1 ev.listed = .ok d ∧ leaveScope sc1 d.params = .ok sc' := by
  unfold readDurative at h
  split at h
  · cases h
  · rename_i vs hv
    split at h
    · cases h
    · rename_i dur hdur
      split at h
      · cases h
      · rename_i c hc
        split at h
        · cases h
        · rename_i cv sc1 hcv
          split at h
          · cases h
          · rename_i e he
            split at h
            · cases h
            · rename_i ev hev
              split at h
              · cases h
              · rename_i d1 hd1
                split at h
                · cases h
                · rename_i d2 hd2
                  split at h
                  · cases h
                  · rename_i sc2 hl
                    cases h
                    obtain ⟨_, _, _, _, m2, _⟩ := sortEffs_ok _ _ _ hd2
                    obtain ⟨_, _, _, _, m3, _⟩ := sortConds_sem (D := Unit) (I := ⟨fun _ _ => (), fun _ _ => (), fun _ _ => True, fun _ _ => True⟩) (σ := fun _ => ()) _ _ _ hd1
                    have hp : d.params = vs := m2.trans m3
                    rw [hp]
                    exact ⟨dur, c, cv, sc1, e, ev, d1, hv, hdur, hc, hcv, he, hev, hd1, hd2, hl⟩

/-! ### Theorems -/

/-- C94: a durative action that is read has the name, the parameters and the duration that are written; the conditions that are
recorded for the start, the end and the whole duration hold exactly if the ones that are written hold, and the updates recorded for the start and the end
are the ones that are written, in this order. Partial: without `scale-down` and equalities as effects. -/
theorem C94_durative_partial {D} {L : YLang} {S : YSem D} {I : Interp D} (hf : YFits L S I) (a : YDurative) (d : YDurativeData) (sc' : YScope)
    (h : readDurative L [] a = .ok (d, sc')) :
    ∃ c e, a.cond = some c ∧ a.eff = some e ∧ d.name = a.name ∧ d.params = (typedVars a.params).map (fun p => ⟨p.1, typeSort p.2⟩) ∧
    (d.params.map (·.sym)).Nodup ∧ sc' = [] ∧
    ∀ (σ : Asg D) (env : String → D), (∀ v ∈ d.params, σ v = env v.sym) →
      ((a.duration = .empty ∧ d.duration = none) ∨ ∃ x t, a.duration = .simple .eq "?duration" x ∧ d.duration = some t ∧ evalT I t σ = x.mean S env) ∧
      (c.PredsOK L → ∀ w, (∀ f ∈ d.pre w, Sat I f σ) ↔ c.holdsAt S w env) ∧
      ∀ b, ∃ effs, e.effs b = some effs ∧ ((∀ e ∈ effs, e.Plain) →
        (d.post b).map (·.update I σ) = effs.map (·.update S env) ∧ ∀ e ∈ effs, (e.update S env).isSome = true) := by
  obtain ⟨dur, c, cv, sc1, e, ev, d1, h1, h2, h3, h4, h5, h6, h7, h8, h9⟩ := readDurative_ok h
  obtain ⟨ep, -, -⟩ := normalizeVars_ok _ _ _ h1
  simp only [List.map_nil, List.nil_append] at ep
  have hsub := readDaGD_scope c _ _ _ h4
  obtain ⟨h10, h11⟩ := scope_back hsub h9
  obtain ⟨es2, he2, hs2, n1, n2, n3, n4⟩ := sortEffs_ok _ _ _ h8
  have hname : d.name = a.name ∧ d.duration = dur ∧ d1.post = YDurativeData.post { name := a.name, params := d.params, duration := dur } := by
    obtain ⟨_, _, _, m1, m2, m3, m4⟩ := sortConds_sem (D := Unit) (I := ⟨fun _ _ => (), fun _ _ => (), fun _ _ => True, fun _ _ => True⟩) (σ := fun _ => ()) _ _ _ h7
    exact ⟨n1.trans m1, n3.trans m3, m4⟩
  refine ⟨c, e, h3, h5, hname.1, ep, h11, h10, ?_⟩
  intro σ env hσ
  have ha := agree_params hσ
  refine ⟨?_, ?_, ?_⟩
  · rcases readDuration_ok h2 with ⟨h12, h13⟩ | ⟨x, t, h12, h13, h14⟩
    · exact .inl ⟨h12, hname.2.1.trans h13⟩
    · exact .inr ⟨x, t, h12, hname.2.1.trans h13, readYExp_sem hf ha x t h14⟩
  · intro hp w
    obtain ⟨es, he, hs, -⟩ := sortConds_sem (I := I) (σ := σ) _ _ _ h7
    rw [n4, hs w, readDaGD_sem hf c _ _ _ es hp h4 ha he w]
    cases w <;> simp [YDurativeData.pre]
  · intro b
    obtain ⟨effs, h12, h13⟩ := readDaEff_sem hf (ha.sub hsub) b e ev es2 h6 he2
    refine ⟨effs, h12, fun hp => ?_⟩
    obtain ⟨h14, h15⟩ := h13 hp
    refine ⟨?_, h15⟩
    rw [hs2 b, hname.2.2]
    cases b <;> simpa [YDurativeData.post] using h14

/-- C94 refuted in general: more than one effect at a time, `(at start (and ...))`, is never read. -/
theorem C94_conjunction_refuted (L : YLang) (sc : YScope) (b : Bool) (es : List YEff) : ∀ r, readDaEff L sc (.timedAnd b es) ≠ .ok r := by
  intro r h
  simp only [readDaEff] at h
  split at h
  · cases h
  · rename_i as has
    exact readYCond_and L sc es _ has

/-- C94 refuted in general: a durative action with the condition `()`, or with the effect `()`, is never read. -/
theorem C94_empty_refuted (L : YLang) (sc : YScope) (a : YDurative) (h : a.cond = none ∨ a.eff = none) : ∀ r, readDurative L sc a ≠ .ok r := by
  rintro ⟨d, sc'⟩ hr
  obtain ⟨dur, c, cv, sc1, e, ev, d1, h1, h2, h3, h4, h5, h6, h7, h8, h9⟩ := readDurative_ok hr
  rcases h with h | h
  · rw [h] at h3; cases h3
  · rw [h] at h5; cases h5

/-- C94 refuted in general: a durative action with a conjunction inside of a conjunction of conditions is never read. -/
theorem C94_nested_refuted (L : YLang) (sc : YScope) (a : YDurative) (ds es : List YDaGD) (h : a.cond = some (.and ds)) (hn : YDaGD.and es ∈ ds) :
    ∀ r, readDurative L sc a ≠ .ok r := by
  rintro ⟨d, sc'⟩ hr
  obtain ⟨dur, c, cv, sc1, e, ev, d1, h1, h2, h3, h4, h5, h6, h7, h8, h9⟩ := readDurative_ok hr
  rw [h] at h3
  cases h3
  simp only [readDaGD] at h4
  split at h4
  · cases h4
  · rename_i vs sc2 hvs
    cases h4
    obtain ⟨ent, he, -⟩ := sortConds_sem (D := Unit) (I := ⟨fun _ _ => (), fun _ _ => (), fun _ _ => True, fun _ _ => True⟩) (σ := fun _ => ()) _ _ _ h7
    simp only [YVal.listed] at he
    clear h7 h8 h9 h6 h5 h2 h1 hr h
    generalize enterScope sc d.params = sc0 at hvs
    induction ds generalizing vs ent sc0 with
    | nil => cases hn
    | cons x ds ih =>
      simp only [readDaGDs] at hvs
      split at hvs
      · cases hvs
      · rename_i v sc3 hv
        split at hvs
        · cases hvs
        · rename_i vs' sc4 hvs'
          cases hvs
          cases he with
          | cons w f _ ent' he' =>
            simp only [List.mem_cons] at hn
            rcases hn with rfl | hn
            · obtain ⟨g, hg, -⟩ := readDaGD_entry hv
              cases hg
            · exact ih hn vs' ent' he' sc3 hvs'

/-! ### Acceptance -/

/-- Simple conditions or a conjunction of simple conditions, all legal. -/
def YDaGD.Flat (L : YLang) (Γ : String → Option String) : YDaGD → Prop
  | .timed _ g => g.Legal L Γ
  | .and ds => ∀ d ∈ ds, ∃ w g, d = .timed w g ∧ g.Legal L Γ
  | _ => False

/-- Simple effects or a conjunction of simple effects, all legal. -/
def YDaEff.Flat (L : YLang) (Γ : String → Option String) : YDaEff → Prop
  | .timed _ e => e.Legal L Γ
  | .and ds => ∀ d ∈ ds, ∃ b e, d = .timed b e ∧ e.Legal L Γ
  | _ => False

/-- A legal durative action with a fixed duration whose conditions and effects are not nested. -/
structure YDurative.Legal (L : YLang) (a : YDurative) : Prop where
  nodup : ((typedVars a.params).map Prod.fst).Nodup
  types : ∀ t, VTok.type t ∈ a.params → primitiveType t ∈ L.types
  duration : ∃ e, a.duration = .simple .eq "?duration" e ∧ NumT L (e.typ L (declare (fun _ => none) (typedVars a.params)))
  cond : ∃ c, a.cond = some c ∧ c.Flat L (declare (fun _ => none) (typedVars a.params))
  eff : ∃ e, a.eff = some e ∧ e.Flat L (declare (fun _ => none) (typedVars a.params))

theorem readDaGDs_typ {L : YLang} (hL : YStd L) {sc : YScope} : ∀ ds : List YDaGD, (∀ d ∈ ds, ∃ w g, d = .timed w g ∧ g.Legal L sc.types) →
    ∃ vs es, readDaGDs L ds sc = .ok (vs, sc) ∧ Entries vs es := by
  intro ds
  induction ds with
  | nil => intro _; exact ⟨[], [], rfl, .nil⟩
  | cons d ds ih =>
    intro h
    obtain ⟨w, g, rfl, hg⟩ := h d (by simp)
    obtain ⟨f, hf⟩ := readGD_typ hL g sc hg
    obtain ⟨vs, es, h1, h2⟩ := ih fun d hd => h d (by simp [hd])
    exact ⟨.entry w f :: vs, (w, f) :: es, by simp only [readDaGDs, readDaGD, hf, h1], .cons _ _ _ _ h2⟩

theorem readDaEffs_typ {L : YLang} (hL : YStd L) {sc : YScope} : ∀ ds : List YDaEff, (∀ d ∈ ds, ∃ b e, d = .timed b e ∧ e.Legal L sc.types) →
    ∃ vs es, readDaEffs L sc ds = .ok vs ∧ Entries vs es ∧ ∀ e ∈ es, e.2 ≠ [] := by
  intro ds
  induction ds with
  | nil => intro _; exact ⟨[], [], rfl, .nil, by simp⟩
  | cons d ds ih =>
    intro h
    obtain ⟨b, e, rfl, hg⟩ := h d (by simp)
    obtain ⟨a, ha⟩ := readYEff_typ hL e hg
    obtain ⟨vs, es, h1, h2, h3⟩ := ih fun d hd => h d (by simp [hd])
    exact ⟨.entry b [a] :: vs, (b, [a]) :: es, by simp only [readDaEffs, readDaEff, ha, h1], .cons _ _ _ _ h2, by simpa using h3⟩

theorem sortConds_entries : ∀ (vs : List (YVal YWhen Formula)) (es : List (YWhen × Formula)) (d : YDurativeData), Entries vs es → ∃ d', sortConds d vs = .ok d' := by
  intro vs
  induction vs with
  | nil => intro es d _; exact ⟨d, rfl⟩
  | cons v vs ih =>
    intro es d h
    cases h with
    | cons w f _ es' h' =>
      cases w with
      | start => exact ih es' _ h'
      | «end» => exact ih es' _ h'
      | all => exact ih es' _ h'

theorem sortEffs_entries : ∀ (vs : List (YVal Bool (List YAssignment))) (es : List (Bool × List YAssignment)) (d : YDurativeData), Entries vs es → (∀ e ∈ es, e.2 ≠ []) →
    ∃ d', sortEffs d vs = .ok d' := by
  intro vs
  induction vs with
  | nil => intro es d _ _; exact ⟨d, rfl⟩
  | cons v vs ih =>
    intro es d h hn
    cases h with
    | cons w as _ es' h' =>
      cases as with
      | nil => exact absurd rfl (hn (w, []) (by simp))
      | cons a as =>
        simp only [sortEffs]
        exact ih es' _ h' fun e he => hn e (by simp [he])

/-- C94: every legal durative action with a fixed duration whose conditions and effects are not nested is accepted. -/
theorem C94_accepts_partial {L : YLang} (hL : YStd L) (a : YDurative) (h : a.Legal L) : ∃ d, readDurative L [] a = .ok (d, []) := by
  obtain ⟨vs, hv, ht, hl⟩ := params_typ hL h.nodup h.types
  obtain ⟨x, hx, s, hs, -⟩ := h.duration
  obtain ⟨t, htt, -⟩ := readYExp_typ hL (sc := enterScope [] vs) x s (by rw [ht]; exact hs)
  obtain ⟨c, hc, hcf⟩ := h.cond
  obtain ⟨e, he, hef⟩ := h.eff
  have h1 : ∃ cv es, readDaGD L c (enterScope [] vs) = .ok (cv, enterScope [] vs) ∧ Entries cv.listed es := by
    cases c with
    | timed w g =>
      obtain ⟨f, hf⟩ := readGD_typ hL g (enterScope [] vs) (by rw [ht]; exact hcf)
      exact ⟨.entry w f, [(w, f)], by simp only [readDaGD, hf], .cons _ _ _ _ .nil⟩
    | and ds =>
      obtain ⟨ws, es, h2, h3⟩ := readDaGDs_typ hL (sc := enterScope [] vs) ds (by rw [ht]; exact hcf)
      exact ⟨.list ws, es, by simp only [readDaGD, h2], h3⟩
    | «forall» _ _ => exact hcf.elim
  obtain ⟨cv, es, h2, h3⟩ := h1
  have h4 : ∃ ev es, readDaEff L (enterScope [] vs) e = .ok ev ∧ Entries ev.listed es ∧ ∀ e ∈ es, e.2 ≠ [] := by
    cases e with
    | timed b e =>
      obtain ⟨a', ha⟩ := readYEff_typ hL (sc := enterScope [] vs) e (by rw [ht]; exact hef)
      exact ⟨.entry b [a'], [(b, [a'])], by simp only [readDaEff, ha], .cons _ _ _ _ .nil, by simp⟩
    | and ds =>
      obtain ⟨ws, es, h2, h3, h4⟩ := readDaEffs_typ hL (sc := enterScope [] vs) ds (by rw [ht]; exact hef)
      exact ⟨.list ws, es, by simp only [readDaEff, h2], h3, h4⟩
    | timedAnd _ _ => exact hef.elim
    | assignDa _ _ _ _ => exact hef.elim
    | continuous _ _ _ => exact hef.elim
    | «forall» _ _ => exact hef.elim
    | when _ _ => exact hef.elim
  obtain ⟨ev, es', h5, h6, h7⟩ := h4
  obtain ⟨d1, h8⟩ := sortConds_entries cv.listed es { name := a.name, params := vs, duration := some t } h3
  obtain ⟨d2, h9⟩ := sortEffs_entries ev.listed es' d1 h6 h7
  refine ⟨d2, ?_⟩
  have hdur : readDuration L (enterScope [] vs) a.duration = .ok (some t) := by rw [hx]; simp [readDuration, htt]
  simp only [readDurative, hv, hdur, hc, he, h2, h5, h8, h9, hl]

/-- `(:durative-action drive :parameters (?x - truck ?l) :duration (= ?duration (fuel ?x))
:condition (and (at start (at ?x ?l)) (over all (at ?x ?l)) (at start (at ?x ?l)))
:effect (and (at end (at ?x ?l)) (at start (not (at ?x ?l))) (at end (increase (fuel ?x) 1))))` -/
def exYDurative : YDurative where
  name := "drive"
  params := [.var "?x", .type "truck", .var "?l"]
  duration := .simple .eq "?duration" (.head "fuel" [.var "?x"])
  cond := some (.and [.timed .start (.lit (.pred "at" [.var "?x", .var "?l"])), .timed .all (.lit (.pred "at" [.var "?x", .var "?l"])),
    .timed .start (.lit (.pred "at" [.var "?x", .var "?l"]))])
  eff := some (.and [.timed true (.add (.pred "at" [.var "?x", .var "?l"])), .timed false (.del (.pred "at" [.var "?x", .var "?l"])),
    .timed true (.num .increase "fuel" [.var "?x"] (.nat 1))])

theorem exYDurative_legal : exYDurative.Legal exYLang where
  nodup := by simp [exYDurative, typedVars, nextType]
  types := by simp [exYDurative, exYLang, primitiveType]
  duration := by simp [exYDurative, NumT, YExp.typ, typedVars, nextType, primitiveType, exYLang, YTerm.typ, YTerm.typs, declare, typeSort]
  cond := by simp [exYDurative, YDaGD.Flat, YGD.Legal, typedVars, nextType, primitiveType, exYLang, YAtom.Legal, YTerm.typ, YTerm.typs, declare, typeSort]
  eff := by
    simp [exYDurative, YDaEff.Flat, YEff.Legal, typedVars, nextType, primitiveType, exYLang, YTerm.typ, YTerm.typs, declare, typeSort, YExp.typ, NumT]
    rintro x y (⟨rfl, rfl⟩ | ⟨rfl, rfl⟩) <;> simp

/-- The example is accepted; the effects at the end are the first and the third one. -/
example : ∃ d, readDurative exYLang [] exYDurative = .ok (d, []) ∧ ∀ σ : Asg Int, (d.post true).length = 2 := by
  obtain ⟨d, hd⟩ := C94_accepts_partial exYLang_std exYDurative exYDurative_legal
  refine ⟨d, hd, ?_⟩
  intro σ
  obtain ⟨c, e, hc, he, -, hp, -, -, h⟩ := C94_durative_partial exYFits exYDurative d [] hd
  obtain ⟨-, -, h3⟩ := h σ (fun x => if x = "?l" then σ ⟨"?l", "object"⟩ else σ ⟨x, "truck"⟩) (by
    rw [hp]; simp [exYDurative, typedVars, nextType, typeSort, primitiveType])
  obtain ⟨effs, h4, h5⟩ := h3 true
  cases he
  simp [YDaEff.effs, YDaEff.allEffs] at h4
  subst h4
  have := congrArg List.length (h5 (by simp [YEff.Plain])).1
  simpa using this

/-- C94 refuted in general: a durative action whose duration is not bounded is accepted, although such actions are not
supported (the check is made for instantaneous actions). -/
theorem C94_unbounded_refuted : ∃ d, readDurative exYLang [] ⟨"wait", [.var "?x", .type "truck"], .empty, some (.and []), some (.and [])⟩ = .ok (d, []) ∧ d.duration = none := by
  refine ⟨{ name := "wait", params := [⟨"?x", "truck"⟩], duration := none }, ?_, rfl⟩
  simp [readDurative, normalizeVars, primitiveType, exYLang, enterScope, dinsert, readDuration, readDaGD, readDaGDs, readDaEff, readDaEffs, YVal.listed, sortConds, sortEffs,
    leaveScope, dlookup, ddelete]

end Tarski

import Verif.Props.ModelText
import Verif.Props.Search
import Mathlib.Data.List.Sublists
/-! C84: breadth-first search over models, with the equality of models the code uses (their texts). -/
namespace Tarski

/-- Models `GroundForwardSearchModel(problem, operators)` (search/model.py:21-45) with the equality and hash of models
(model.py:51-57), which go through the text. -/
def textSearchModel (L : MLang) (dom : Domains) (init : MState) (goal : Formula) (ops : List Operator) :
    SearchModel MState Operator (Except Err String) Err := groundSearchModel L dom init goal ops (modelText L)

/-! ### Agreeing states have agreeing successors -/

/-- Two computations raise the same exception, or return related results. -/
def ExRel {α β : Type} (R : α → β → Prop) : Except Err α → Except Err β → Prop
  | .ok a, .ok b => R a b
  | .error e, .error e' => e = e'
  | _, _ => False

theorem seqApply_exrel {α : Type} {f : MState → α → Except Err MState} {R : MState → MState → Prop} {as : List α}
    (h : ∀ a ∈ as, ∀ m r, R m r → ExRel R (f m a) (f r a)) :
    ∀ m r, R m r → ExRel R (seqApply f m as) (seqApply f r as) := by
  induction as with
  | nil => intro m r hr; exact hr
  | cons a as ih =>
    intro m r hr
    have h1 := h a (by simp) m r hr
    simp only [seqApply]
    cases hm : f m a <;> cases hr' : f r a <;> rw [hm, hr'] at h1 <;> simp only [ExRel] at h1 ⊢
    · exact h1
    · exact ih (fun b hb => h b (by simp [hb])) _ _ h1

theorem obs_change {L : MLang} {m r : MState} (h : ObsEq L m r) (ch : Change) : ObsEq L (ch.apply L m) (ch.apply L r) := by
  intro x
  cases x with
  | pred p =>
    intro pt
    have := h (.pred p) pt
    rw [Bool.eq_iff_iff, holds_change, holds_change, this]
  | fn f =>
    intro pt
    have := h (.fn f) pt
    apply value_ext
    intro c
    rw [value_change, value_change, this]

theorem raising_add {L : MLang} (m : MState) (p : String) (args : List Arg) :
    raising (m.add L (.user p) args) = (match checkAssignment L (L.psorts p) args with
      | .error e => .error e
      | .ok pt => .ok ((Change.add p pt).apply L m)) := by
  simp only [MState.add]
  cases checkAssignment L (L.psorts p) args <;> rfl

theorem raising_discard {L : MLang} (m : MState) (p : String) (ts : List Term) :
    raising (m.discard L p (ts.map termArg)) = (match wrapTuple (ts.map termArg) with
      | .ok (some pt) => .ok ((Change.del p pt).apply L m)
      | _ => .ok m) := by
  obtain ⟨r, hr⟩ := wrapTuple_terms ts
  simp only [MState.discard, hr, Change.apply]
  cases hd : dlookup m.preds (L.psig p) with
  | none => cases r <;> rfl
  | some ext => cases r <;> rfl

theorem raising_set {L : MLang} (m : MState) (f : String) (b : Bool) (args : List Arg) (c : Const) :
    raising (m.set L f b args (.const c)) = (if b then .error .semantic else if args.all Arg.isConst = false then .error .semantic
      else match checkAssignment L (L.fsorts f) (args ++ [.const c]) with
      | .error e => .error e
      | .ok cs => .ok ((Change.set f cs.dropLast (cs.getLastD default)).apply L m)) := by
  have hv : Arg.const c ≠ .lit .pyNone := by simp
  simp only [MState.set, hv, if_false]
  cases b
  · simp only [Bool.false_eq_true, if_false]
    by_cases ha : args.all Arg.isConst = false
    · simp only [ha, if_true]; rfl
    · simp only [ha, if_false]
      cases checkAssignment L (L.fsorts f) (args ++ [.const c]) <;> rfl
  · rfl

theorem applyFuel_obs (L : MLang) (dom : Domains) (n : Nat) : ∀ (m r : MState) (e : Effect), ObsEq L m r →
    ExRel (ObsEq L) (applyFuel L dom n m e) (applyFuel L dom n r e) := by
  induction n with
  | zero | succ n ih =>
    intro m r e h
    unfold applyFuel
    rw [evFormula_same (r := r) e.cond fun x _ => h x]
    cases evFormula L r noSigma e.cond with
    | error er => rfl
    | ok b =>
      cases b with
      | false => exact h
      | true =>
        cases e with
        | add c p ts =>
          dsimp only
          cases p with
          | cmp c => exact rfl
          | user p =>
            rw [raising_add, raising_add]
            cases checkAssignment L (L.psorts p) (ts.map termArg) with
            | error e => rfl
            | ok pt => exact obs_change h _
        | del c p ts =>
          dsimp only
          cases p with
          | cmp c => exact h
          | user p =>
            simp only [MState.discardP]
            rw [raising_discard, raising_discard]
            cases wrapTuple (ts.map termArg) with
            | error e => exact h
            | ok pt =>
              cases pt with
              | none => exact h
              | some pt => exact obs_change h _
        | lit c l => rfl
        | assign c f ts t =>
          dsimp only
          rw [evTerm_same (r := r) .eval t fun x _ => h x]
          cases evTerm L r noSigma .eval t with
          | error e => rfl
          | ok c =>
            dsimp only
            rw [raising_set, raising_set]
            split
            · rfl
            · split
              · rfl
              · cases checkAssignment L (L.fsorts f) (ts.map termArg ++ [.const c]) with
                | error e => rfl
                | ok cs => exact obs_change h _
        | univ c vs es =>
          dsimp only
          cases enumSubsts dom vs with
          | error e => rfl
          | ok ss =>
            first
            | rfl
            | exact seqApply_exrel (f := fun m s => seqApply (fun m e => applyFuel L dom n m (subE s e)) m es) (as := ss)
                (fun s _ m r hmr => seqApply_exrel (f := fun m e => applyFuel L dom n m (subE s e)) (as := es)
                  (fun e _ m r hmr => ih m r _ hmr) m r hmr) m r h

theorem progress_obs {L : MLang} {dom : Domains} {m r : MState} (h : ObsEq L m r) (es : List Effect) :
    ExRel (ObsEq L) (progress L dom m es) (progress L dom r es) :=
  seqApply_exrel (fun e _ m r hmr => applyFuel_obs L dom (edepth e) m r e hmr) m r h

theorem successors_obs {L : MLang} {dom : Domains} {m r : MState} (h : ObsEq L m r) (ops : List Operator) :
    ExRel (List.Forall₂ fun a b => a.1 = b.1 ∧ ObsEq L a.2 b.2) (groundSuccessors L dom m ops) (groundSuccessors L dom r ops) := by
  induction ops with
  | nil => exact .nil
  | cons o ops ih =>
    simp only [groundSuccessors, isApplicable]
    rw [evFormula_same (r := r) o.pre fun x _ => h x]
    cases evFormula L r noSigma o.pre with
    | error e => rfl
    | ok b =>
      cases b with
      | false => exact ih
      | true =>
        dsimp only
        have hp := progress_obs (dom := dom) h o.effs
        cases h1 : progress L dom m o.effs <;> cases h2 : progress L dom r o.effs <;> rw [h1, h2] at hp <;> simp only [ExRel] at hp ⊢
        · exact hp
        · cases h3 : groundSuccessors L dom m ops <;> cases h4 : groundSuccessors L dom r ops <;> rw [h3, h4] at ih <;> simp only [ExRel] at ih ⊢
          · exact ih
          · exact .cons ⟨rfl, hp⟩ ih

/-! ### States reached are tidy -/

theorem seqApply_inv {α : Type} {f : MState → α → Except Err MState} {I : MState → Prop} {as : List α}
    (h : ∀ a ∈ as, ∀ m m', I m → f m a = .ok m' → I m') : ∀ m m', I m → seqApply f m as = .ok m' → I m' := by
  induction as with
  | nil => intro m m' hm e; simp only [seqApply, Except.ok.injEq] at e; exact e ▸ hm
  | cons a as ih =>
    intro m m' hm e
    simp only [seqApply] at e
    cases h1 : f m a with
    | error er => simp [h1] at e
    | ok m1 =>
      simp only [h1] at e
      exact ih (fun b hb => h b (by simp [hb])) m1 m' (h a (by simp) m m1 hm h1) e

theorem raising_tidy {L : MLang} {m m' : MState} (h : Tidy L m) {o : MOp} (he : raising (m.step L o) = .ok m') : Tidy L m' := by
  have := h.step o
  unfold raising at he
  split at he
  · cases he; exact this
  · cases he

theorem applyFuel_tidy (L : MLang) (dom : Domains) (n : Nat) : ∀ (e : Effect) (m m' : MState), Tidy L m →
    applyFuel L dom n m e = .ok m' → Tidy L m' := by
  induction n with
  | zero | succ n ih =>
    intro e m m' h he
    unfold applyFuel at he
    cases hc : evFormula L m noSigma e.cond with
    | error er => simp [hc] at he
    | ok b =>
      cases b with
      | false => simp only [hc, Except.ok.injEq] at he; exact he ▸ h
      | true =>
        simp only [hc] at he
        cases e with
        | add c p ts => exact raising_tidy h (o := .add p (ts.map termArg)) he
        | del c p ts =>
          cases p with
          | cmp c =>
            simp only [MState.discardP, raising, Except.ok.injEq] at he; exact he ▸ h
          | user p => exact raising_tidy h (o := .discard p (ts.map termArg)) he
        | lit c l => simp at he
        | assign c f ts t =>
          dsimp only at he
          cases ht : evTerm L m noSigma .eval t with
          | error e => simp [ht] at he
          | ok c =>
            simp only [ht] at he
            exact raising_tidy h (o := .set f _ (ts.map termArg) (.const c)) he
        | univ c vs es =>
          dsimp only at he
          cases hs : enumSubsts dom vs with
          | error e => simp [hs] at he
          | ok ss =>
            simp only [hs] at he
            first
            | (simp at he)
            | exact seqApply_inv (fun s _ m m' hm e => seqApply_inv (fun e _ m m' hm h' => ih _ m m' hm h') m m' hm e) m m' h he

theorem successors_mem {L : MLang} {dom : Domains} {m : MState} {ops : List Operator} {l : List (Operator × MState)}
    (h : groundSuccessors L dom m ops = .ok l) {o : Operator} {m' : MState} (hm : (o, m') ∈ l) :
    o ∈ ops ∧ isApplicable L m o = .ok true ∧ progress L dom m o.effs = .ok m' := by
  induction ops generalizing l with
  | nil => simp only [groundSuccessors, Except.ok.injEq] at h; subst h; simp at hm
  | cons a ops ih =>
    simp only [groundSuccessors] at h
    cases ha : isApplicable L m a with
    | error e => simp [ha] at h
    | ok b =>
      cases b with
      | false =>
        simp only [ha] at h
        obtain ⟨h1, h2⟩ := ih h hm
        exact ⟨by simp [h1], h2⟩
      | true =>
        simp only [ha] at h
        cases hp : progress L dom m a.effs with
        | error e => simp [hp] at h
        | ok m1 =>
          simp only [hp] at h
          cases hg : groundSuccessors L dom m ops with
          | error e => simp [hg] at h
          | ok l1 =>
            simp only [hg, Except.ok.injEq] at h
            subst h
            rcases List.mem_cons.1 hm with e | hm
            · cases e; exact ⟨by simp, ha, hp⟩
            · obtain ⟨h1, h2⟩ := ih hg hm
              exact ⟨by simp [h1], h2⟩

theorem reaches_tidy {L : MLang} {dom : Domains} {init : MState} {goal : Formula} {ops : List Operator} (h : Tidy L init) {n m}
    (hr : Reaches (textSearchModel L dom init goal ops) n m) : Tidy L m := by
  induction hr with
  | init => exact h
  | @step n s l o t _ hl ht ih =>
    obtain ⟨_, _, hp⟩ := successors_mem hl ht
    exact seqApply_inv (fun e _ m m' hm h' => applyFuel_tidy L dom _ e m m' hm h') s t ih hp

/-- C84: if the atoms of the reachable states are printed differently, then the equality of models never confuses
reachable states that behave differently: reachable states have the same text exactly if they agree on every query. -/
theorem C84_key (L : MLang) (dom : Domains) (hist : List MOp) (goal : Formula) (ops : List Operator)
    (A : TrueAtom → Prop) (hA : Distinct A)
    (hm : ∀ n m, Reaches (textSearchModel L dom (MState.empty.run L hist) goal ops) n m → Within L A m) :
    KeyOk (textSearchModel L dom (MState.empty.run L hist) goal ops) ∧
    ∀ n m k r, Reaches (textSearchModel L dom (MState.empty.run L hist) goal ops) n m →
      Reaches (textSearchModel L dom (MState.empty.run L hist) goal ops) k r →
      (modelText L m = modelText L r ↔ ObsEq L m r) := by
  have hinit := (Tidy.empty L).run hist
  have key : ∀ n m k r, Reaches (textSearchModel L dom (MState.empty.run L hist) goal ops) n m →
      Reaches (textSearchModel L dom (MState.empty.run L hist) goal ops) k r →
      (modelText L m = modelText L r ↔ ObsEq L m r) := fun n m k r h1 h2 =>
    within_eq hA (reaches_tidy hinit h1) (reaches_tidy hinit h2) (hm n m h1) (hm k r h2)
  refine ⟨⟨?_, ?_⟩, key⟩
  · intro m n s t l l' hs ht e hl hl' o u hu'
    have hobs := (key m s n t hs ht).1 e
    have hr := successors_obs (dom := dom) hobs ops
    have hl1 : groundSuccessors L dom s ops = .ok l := hl
    have hl2 : groundSuccessors L dom t ops = .ok l' := hl'
    rw [hl1, hl2] at hr
    have : ∃ b ∈ l', o = b.1 ∧ ObsEq L u b.2 := by
      have hf : List.Forall₂ (fun a b => a.1 = b.1 ∧ ObsEq L a.2 b.2) l l' := hr
      clear hl hl' hl1 hl2 hr
      induction hf with
      | nil => simp at hu'
      | @cons a b l l' hab _ ih =>
        rcases List.mem_cons.1 hu' with e | hu'
        · subst e; exact ⟨b, by simp, hab.1, hab.2⟩
        · obtain ⟨c, hc, h⟩ := ih hu'
          exact ⟨c, by simp [hc], h⟩
    obtain ⟨⟨o', u'⟩, hmem, _, hobs'⟩ := this
    refine ⟨o', u', hmem, ?_⟩
    exact ((key (m + 1) u (n + 1) u' (.step hs hl hu') (.step ht hl' hmem)).2 hobs').symm
  · intro m n s t hs ht e
    have hobs := (key m s n t hs ht).1 e
    exact evFormula_same goal fun x _ => hobs x

/-- C84: when the search has exhausted the state space, it has counted a goal exactly if some plan made of the given
operators leads to the goal; every state that a plan leads to has been expanded (up to agreement on all queries) at most
as deep as the plan is long; every expanded state is the result of a plan; and no two of them agree on every query. -/
theorem C84_search (L : MLang) (dom : Domains) (hist : List MOp) (goal : Formula) (ops : List Operator)
    (A : TrueAtom → Prop) (hA : Distinct A)
    (hm : ∀ n m, Reaches (textSearchModel L dom (MState.empty.run L hist) goal ops) n m → Within L A m)
    (max : Int) (fuel : Nat) (st : BState MState (Except Err String))
    (h : bfs (textSearchModel L dom (MState.empty.run L hist) goal ops) max fuel = some (.ok (true, st))) :
    (0 < st.numGoals ↔ ∃ os m, (∀ o ∈ os, o ∈ ops) ∧ execPlan L dom (MState.empty.run L hist) os = .ok (some m) ∧
      evFormula L m noSigma goal = .ok true) ∧
    (∀ os m, (∀ o ∈ os, o ∈ ops) → execPlan L dom (MState.empty.run L hist) os = .ok (some m) →
      ∃ p ∈ st.expanded, ObsEq L p.1 m ∧ p.2 ≤ os.length) ∧
    (∀ p ∈ st.expanded, ∃ os, os.length = p.2 ∧ (∀ o ∈ os, o ∈ ops) ∧
      execPlan L dom (MState.empty.run L hist) os = .ok (some p.1)) ∧
    (st.expanded.Pairwise fun p q => ¬ ObsEq L p.1 q.1) := by
  obtain ⟨hk, hkey⟩ := C84_key L dom hist goal ops A hA hm
  obtain ⟨hsound, hcompl⟩ := C27_plans L dom (MState.empty.run L hist) goal ops (modelText L)
  obtain ⟨hreach, hnodup, _, _, _⟩ := C27_expands h
  have hok : ∀ n m, Reaches (textSearchModel L dom (MState.empty.run L hist) goal ops) n m →
      ∃ l, groundSuccessors L dom m ops = .ok l := by
    intro n m hr
    obtain ⟨p, hp, hpk, _⟩ := C27_complete hk h n m hr
    obtain ⟨opn, clo, it, g, hi, _, _, _⟩ := (bfs_done h).inv
    obtain ⟨l, hl, _⟩ := hi.succ p hp
    have hobs := (hkey _ _ _ _ (hreach p hp) hr).1 hpk
    have hrel := successors_obs (dom := dom) hobs ops
    have hl' : groundSuccessors L dom p.1 ops = .ok l := hl
    rw [hl'] at hrel
    cases hg : groundSuccessors L dom m ops with
    | error e => rw [hg] at hrel; exact hrel.elim
    | ok l' => exact ⟨l', rfl⟩
  refine ⟨?_, fun os m hos he => ?_, fun p hp => hsound _ _ (hreach p hp), ?_⟩
  · rw [((C27_goals hk h).2 rfl).1]
    constructor
    · rintro ⟨n, s, hs, hg⟩
      obtain ⟨os, _, h1, h2⟩ := hsound n s hs
      exact ⟨os, s, h1, h2, hg⟩
    · rintro ⟨os, m, h1, h2, hg⟩
      exact ⟨_, m, hcompl hok os h1 m h2, hg⟩
  · have hr := hcompl hok os hos m he
    obtain ⟨p, hp, hpk, hle⟩ := C27_complete hk h _ m hr
    exact ⟨p, hp, (hkey _ _ _ _ (hreach p hp) hr).1 hpk, hle⟩
  · rw [List.Nodup, List.pairwise_map] at hnodup
    refine hnodup.imp_of_mem fun {p q} hp hq hne hobs => hne ?_
    exact (hkey _ _ _ _ (hreach p hp) (hreach q hq)).2 hobs

/-! ### Problems over finitely many atoms -/

/-- Whatever the effect makes true, or gives as a value, belongs to `A`. -/
def WritesWithin (L : MLang) (A : TrueAtom → Prop) : Effect → Prop
  | .add _ p ts => ∃ n pt, p = .user n ∧ ts = pt.map Const.toTerm ∧ A (n, pt, none)
  | .del _ _ _ => True
  | .lit _ _ => False
  | .assign _ f ts r => ∃ pt, ts = pt.map Const.toTerm ∧
      ∀ m, Within L A m → ∀ c, evTerm L m noSigma .eval r = .ok c → A (f, pt, some c)
  | .univ _ _ _ => False

theorem checked_consts {L : MLang} {pt cs : List Const} {ss : List String}
    (h : checkAssignment L ss ((pt.map Const.toTerm).map termArg) = .ok cs) : cs = pt := by
  have e : (pt.map Const.toTerm).map termArg = pt.map .const := by
    rw [List.map_map]; rfl
  rw [e] at h
  have := (checkAssignment_iff ..).1 h
  clear h e
  induction pt generalizing cs ss with
  | nil => cases this; rfl
  | cons c pt ih =>
    cases this with
    | cons h1 h2 => cases h1; rw [ih h2]

theorem within_change {L : MLang} {A : TrueAtom → Prop} {m : MState} (h : Within L A m) (ch : Change)
    (h1 : ∀ p pt, ch = .add p pt → A (p, pt, none)) (h2 : ∀ f pt v, ch = .set f pt v → A (f, pt, some v)) :
    Within L A (ch.apply L m) := by
  constructor
  · intro p pt hp
    rcases (holds_change ..).1 hp with e | e
    · exact h1 p pt e
    · exact h.preds p pt e.1
  · intro f pt v hf
    rcases (value_change ..).1 hf with e | e
    · exact h2 f pt v e
    · exact h.funs f pt v e.1

theorem applyEffect_within {L : MLang} {dom : Domains} {A : TrueAtom → Prop} {e : Effect} (he : WritesWithin L A e) {m m' : MState}
    (h : Within L A m) (hs : applyEffect L dom m e = .ok m') : Within L A m' := by
  unfold applyEffect applyFuel at hs
  cases hc : evFormula L m noSigma e.cond with
  | error er => simp [hc] at hs
  | ok b =>
    cases b with
    | false => simp only [hc, Except.ok.injEq] at hs; exact hs ▸ h
    | true =>
      simp only [hc] at hs
      cases e with
      | add c p ts =>
        obtain ⟨n, pt, rfl, rfl, hA⟩ := he
        dsimp only at hs
        rw [raising_add] at hs
        split at hs
        · cases hs
        · rename_i cs hcs
          cases hs
          obtain rfl := checked_consts hcs
          exact within_change h _ (fun p x e => by cases e; exact hA) (fun _ _ _ e => by cases e)
      | del c p ts =>
        dsimp only at hs
        cases p with
        | cmp c => simp only [MState.discardP, raising, Except.ok.injEq] at hs; exact hs ▸ h
        | user p =>
          simp only [MState.discardP] at hs
          rw [raising_discard] at hs
          split at hs
          · cases hs
            exact within_change h _ (fun _ _ e => by cases e) (fun _ _ _ e => by cases e)
          · cases hs; exact h
      | lit c l => exact he.elim
      | assign c f ts r =>
        obtain ⟨pt, rfl, hA⟩ := he
        dsimp only at hs
        cases ht : evTerm L m noSigma .eval r with
        | error er => simp [ht] at hs
        | ok v =>
          simp only [ht] at hs
          rw [raising_set] at hs
          split at hs
          · cases hs
          · split at hs
            · cases hs
            · split at hs
              · cases hs
              · rename_i cs hcs
                cases hs
                have e : (pt.map Const.toTerm).map termArg ++ [Arg.const v] = ((pt ++ [v]).map Const.toTerm).map termArg := by
                  simp [Const.toTerm, termArg]
                rw [e] at hcs
                obtain rfl := checked_consts hcs
                have e1 : (pt ++ [v]).dropLast = pt := by simp
                have e2 : (pt ++ [v]).getLastD default = v := by simp
                rw [e1, e2]
                exact within_change h _ (fun _ _ e => by cases e) (fun g x w e => by cases e; exact hA m h v ht)
      | univ c vs es => exact he.elim

theorem reaches_within {L : MLang} {dom : Domains} {A : TrueAtom → Prop} {init : MState} {goal : Formula} {ops : List Operator}
    (hi : Within L A init) (ho : ∀ o ∈ ops, ∀ e ∈ o.effs, WritesWithin L A e) {n m}
    (hr : Reaches (textSearchModel L dom init goal ops) n m) : Within L A m := by
  induction hr with
  | init => exact hi
  | @step n s l o t _ hl ht ih =>
    obtain ⟨h1, _, hp⟩ := successors_mem hl ht
    refine seqApply_inv (fun e he m m' hm h' => applyEffect_within (ho o h1 e ?_) hm h') s t ih hp
    simp only [delsFirst, List.mem_append, List.mem_filter] at he
    exact he.elim (·.1) (·.1)

theorem mem_texts {L : MLang} {A : List TrueAtom} (hn : A.Nodup) {m : MState} (ht : Tidy L m) (hm : Within L (· ∈ A) m) :
    modelText L m ∈ A.sublists.map fun l => Except.ok ("Model[" ++ strJoin ", " (sortTexts (l.map trueAtomText)) ++ "]") := by
  rw [tidy_text ht]
  refine List.mem_map.2 ⟨A.filter (· ∈ rawAtoms m), List.mem_sublists.2 List.filter_sublist, ?_⟩
  have hp : (A.filter (· ∈ rawAtoms m)).Perm (rawAtoms m) := by
    rw [List.perm_ext_iff_of_nodup (hn.filter _) (nodup_rawAtoms ht)]
    intro a
    simp only [List.mem_filter, decide_eq_true_eq]
    exact ⟨And.right, fun h => ⟨hm.mem ht a h, h⟩⟩
  rw [sortTexts_eq (hp.map _)]

/-- C84: planning problems whose initial state and effects stay within finitely many ground atoms and values that are
printed differently. The search stops, whatever the limit on the number of expansions. If it exhausts the state space,
it has counted a goal exactly if there is a plan for the goal, and it has expanded exactly the states that plans lead
to, each once. If there is no limit, it exhausts the state space, unless evaluating a condition or applying an effect
raises in some reachable state. -/
theorem C84_finite_partial (L : MLang) (dom : Domains) (hist : List MOp) (goal : Formula) (ops : List Operator)
    (A : List TrueAtom) (hn : A.Nodup) (hA : Distinct (· ∈ A)) (hi : Within L (· ∈ A) (MState.empty.run L hist))
    (ho : ∀ o ∈ ops, ∀ e ∈ o.effs, WritesWithin L (· ∈ A) e) (max : Int) (fuel : Nat) (hf : 2 ^ A.length < fuel) :
    ∃ r, bfs (textSearchModel L dom (MState.empty.run L hist) goal ops) max fuel = some r ∧
      (∀ st, r = .ok (true, st) →
        (0 < st.numGoals ↔ ∃ os m, (∀ o ∈ os, o ∈ ops) ∧ execPlan L dom (MState.empty.run L hist) os = .ok (some m) ∧
          evFormula L m noSigma goal = .ok true) ∧
        (∀ os m, (∀ o ∈ os, o ∈ ops) → execPlan L dom (MState.empty.run L hist) os = .ok (some m) →
          ∃ p ∈ st.expanded, ObsEq L p.1 m ∧ p.2 ≤ os.length) ∧
        (∀ p ∈ st.expanded, ∃ os, os.length = p.2 ∧ (∀ o ∈ os, o ∈ ops) ∧
          execPlan L dom (MState.empty.run L hist) os = .ok (some p.1)) ∧
        (st.expanded.Pairwise fun p q => ¬ ObsEq L p.1 q.1)) ∧
      (max < 0 → ∀ st, r ≠ .ok (false, st)) ∧
      (∀ e, r = .error e → ∃ os m, (∀ o ∈ os, o ∈ ops) ∧ execPlan L dom (MState.empty.run L hist) os = .ok (some m) ∧
        (evFormula L m noSigma goal = .error e ∨ groundSuccessors L dom m ops = .error e)) := by
  have hinit := (Tidy.empty L).run hist
  have hw : ∀ n m, Reaches (textSearchModel L dom (MState.empty.run L hist) goal ops) n m → Within L (· ∈ A) m :=
    fun n m hr => reaches_within hi ho hr
  obtain ⟨B, hB, hlen⟩ : ∃ B : List (Except Err String), (∀ n m,
      Reaches (textSearchModel L dom (MState.empty.run L hist) goal ops) n m → modelText L m ∈ B) ∧ B.length < fuel :=
    ⟨_, fun n m hr => mem_texts hn (reaches_tidy hinit hr) (hw n m hr), by
      rw [List.length_map, List.length_sublists]; exact hf⟩
  have hstop := C27_finite_stops (textSearchModel L dom (MState.empty.run L hist) goal ops) max B hB fuel hlen
  cases hr : bfs (textSearchModel L dom (MState.empty.run L hist) goal ops) max fuel with
  | none => exact absurd hr hstop
  | some r =>
    refine ⟨r, rfl, ?_, ?_, ?_⟩
    · rintro st rfl
      exact C84_search L dom hist goal ops (· ∈ A) hA hw max fuel st hr
    · rintro hmax st rfl
      obtain ⟨_, _, _, _, h5⟩ := C27_expands hr
      have := h5 rfl
      omega
    · rintro e rfl
      obtain ⟨n, s, hs, h⟩ := C27_errors _ max fuel e hr
      obtain ⟨os, _, h1, h2⟩ := (C27_plans L dom (MState.empty.run L hist) goal ops (modelText L)).1 n s hs
      exact ⟨os, s, h1, h2, h⟩

/-! ### What goes wrong in general -/

/-- Two operators: both consume `q`; one makes `p` true of the natural number 1, the other of the integer 1. -/
def confusedOps : List Operator :=
  [⟨.atom (.user "q") [], [.del .top (.user "q") [], .add .top (.user "p") [.const (.int 1) "Natural"]]⟩,
   ⟨.atom (.user "q") [], [.del .top (.user "q") [], .add .top (.user "p") [.const (.int 1) "Integer"]]⟩]

/-- C84: the search may exhaust the state space without finding a goal that one operator reaches: the state it leads to
is printed like the one reached by another operator, and is taken for it. -/
theorem C84_refuted :
    ∃ (hist : List MOp) (goal : Formula) (ops : List Operator) (dom : Domains) (os : List Operator) (m : MState)
      (st : BState MState (Except Err String)),
      (∀ o ∈ os, o ∈ ops) ∧ execPlan readLang dom (MState.empty.run readLang hist) os = .ok (some m) ∧
      evFormula readLang m noSigma goal = .ok true ∧
      bfs (textSearchModel readLang dom (MState.empty.run readLang hist) goal ops) (-1) 5 = some (.ok (true, st)) ∧
      st.numGoals = 0 := by
  refine ⟨[.add (.user "q") []], .atom (.user "p") [.const (.int 1) "Integer"], confusedOps, fun _ => .error .keyError,
    [confusedOps.getLastD ⟨.bot, []⟩], _, _, ?_, rfl, by decide, rfl, by decide⟩
  intro o ho
  simp only [List.mem_singleton] at ho
  subst ho
  exact .tail _ (.head _)

/-- The same operators over one sort of numbers only: the hypotheses of `C84_finite_partial` are met, and the goal is
found. -/
def clearOps : List Operator :=
  [⟨.atom (.user "q") [], [.del .top (.user "q") [], .add .top (.user "p") [.const (.int 1) "Integer"]]⟩,
   ⟨.atom (.user "q") [], [.assign .top "f" [.const (.str "a") "object"] (.const (.int 2) "Integer")]⟩]

def clearAtoms : List TrueAtom :=
  [("q", [], none), ("p", [⟨.int 1, "Integer"⟩], none), ("f", [⟨.str "a", "object"⟩], some ⟨.int 2, "Integer"⟩)]

example : clearAtoms.Nodup ∧ Distinct (· ∈ clearAtoms) ∧
    Within readLang (· ∈ clearAtoms) (MState.empty.run readLang [.add (.user "q") []]) ∧
    (∀ o ∈ clearOps, ∀ e ∈ o.effs, WritesWithin readLang (· ∈ clearAtoms) e) := by
  refine ⟨by decide, ⟨?_, ?_⟩, ⟨?_, ?_⟩, ?_⟩
  · intro p pt v h
    simp only [clearAtoms, List.mem_cons, Prod.mk.injEq, List.not_mem_nil, or_false] at h
    unfold Legible
    rcases h with ⟨rfl, rfl, rfl⟩ | ⟨rfl, rfl, rfl⟩ | ⟨rfl, rfl, rfl⟩
    · decide
    · refine ⟨by decide, by decide, by simp⟩
    · refine ⟨by decide, by decide, ?_⟩
      intro c hc
      cases hc
      decide
  · decide
  · intro p pt h
    have := (mem_rawAtoms_pred ((Tidy.empty readLang).run [.add (.user "q") []]) p pt).2 h
    have e : rawAtoms (MState.empty.run readLang [.add (.user "q") []]) = [("q", [], none)] := by decide
    rw [e] at this
    simp only [List.mem_singleton] at this
    rw [this]
    exact .head _
  · intro f pt v h
    have := (mem_rawAtoms_fun ((Tidy.empty readLang).run [.add (.user "q") []]) f pt v).2 h
    have e : rawAtoms (MState.empty.run readLang [.add (.user "q") []]) = [("q", [], none)] := by decide
    rw [e] at this
    simp at this
  · simp only [clearOps, List.forall_mem_cons, WritesWithin, List.not_mem_nil, false_imp_iff, implies_true, and_true, true_and]
    refine ⟨⟨"p", [⟨.int 1, "Integer"⟩], rfl, rfl, .tail _ (.head _)⟩, [⟨.str "a", "object"⟩], rfl, ?_⟩
    intro m _ c hc
    simp only [evTerm, Except.ok.injEq] at hc
    subst hc
    exact .tail _ (.tail _ (.head _))

example : ∃ st, bfs (textSearchModel readLang (fun _ => .error .keyError) (MState.empty.run readLang [.add (.user "q") []])
    (.atom (.user "p") [.const (.int 1) "Integer"]) clearOps) (-1) 9 = some (.ok (true, st)) ∧ st.numGoals = 2 ∧
    st.expanded.length = 4 := ⟨_, rfl, by decide, by decide⟩

end Tarski

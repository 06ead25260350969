import Verif.PddlInitLemmas
import Verif.Props.Pddl
/-! Property C53: the initial state read from the PDDL text of an initial state is the same. -/
namespace Tarski

section
variable {M : MLang} {L : RLang} {real : String → Bool} {m : MState}

theorem keys_dinsert {α β} [DecidableEq α] {d : List (α × β)} (h : (d.map (·.1)).Nodup) (a : α) (b : β) :
    ((dinsert d a b).map (·.1)).Nodup ∧ ∀ kv ∈ dinsert d a b, kv = (a, b) ∨ kv ∈ d := by
  induction d with
  | nil => simp [dinsert]
  | cons kv d ih =>
    obtain ⟨k, v⟩ := kv
    simp only [List.map_cons, List.nodup_cons] at h
    obtain ⟨i1, i2⟩ := ih h.2
    simp only [dinsert]
    by_cases hk : k = a
    · subst hk
      simp only [if_true, List.map_cons, List.nodup_cons]
      refine ⟨⟨h.1, h.2⟩, fun kv hkv => ?_⟩
      rcases List.mem_cons.1 hkv with h | h
      · exact .inl h
      · exact .inr (List.mem_cons_of_mem _ h)
    · simp only [hk, if_false, List.map_cons, List.nodup_cons]
      refine ⟨⟨?_, i1⟩, fun kv hkv => ?_⟩
      · intro hm
        obtain ⟨kv, h1, h2⟩ := List.mem_map.1 hm
        rcases i2 kv h1 with rfl | h3
        · exact hk h2.symm
        · exact h.1 (List.mem_map.2 ⟨kv, h3, h2⟩)
      · rcases List.mem_cons.1 hkv with h | h
        · exact .inr (by simp [h])
        · rcases i2 kv h with h | h
          · exact .inl h
          · exact .inr (List.mem_cons_of_mem _ h)

theorem keys_ddelete {α β} [DecidableEq α] {d : List (α × β)} (h : (d.map (·.1)).Nodup) (a : α) :
    ((ddelete d a).map (·.1)).Nodup ∧ ∀ kv ∈ ddelete d a, kv ∈ d :=
  ⟨h.sublist (List.filter_sublist.map _), fun _ hkv => (List.mem_filter.1 hkv).1⟩

theorem stateWF_empty (M : MLang) : StateWF M MState.empty := by
  constructor <;> simp [MState.empty]

/-- Every call keeps states well formed. -/
theorem stateWF_step (h : StateWF M m) (o : MOp) : StateWF M (m.step M o).1 := by
  have insP : ∀ p ext, StateWF M { m with preds := dinsert m.preds (M.psig p) ext } := fun p ext => by
    obtain ⟨h1, h2⟩ := keys_dinsert h.pkeys (M.psig p) ext
    refine ⟨h1, h.fkeys, h.points, fun kv hkv => ?_, h.fsigs⟩
    rcases h2 kv hkv with rfl | h3
    · exact ⟨p, rfl⟩
    · exact h.psigs kv h3
  cases o with
  | add p args =>
    cases p with
    | cmp c => exact h
    | user n =>
      simp only [MState.step, MState.add]
      split
      · exact h
      · exact insP n _
  | remove p args =>
    simp only [MState.step, MState.remove]
    split
    · exact h
    · split
      · exact h
      · exact h
      · split
        · exact insP p _
        · exact h
  | discard p args =>
    simp only [MState.step, MState.discard]
    split
    · exact h
    · split
      · exact h
      · exact h
      · exact insP p _
  | set f b args v =>
    simp only [MState.step, MState.set]
    split
    · exact h
    split
    · exact h
    split
    · exact h
    split
    · exact h
    rename_i cs _ _
    have hd : ∀ pt c, ((dinsert ((dlookup m.fns (M.fsig f)).getD []) pt c).map (·.1)).Nodup := fun pt c => by
      apply (keys_dinsert ?_ pt c).1
      cases hl : dlookup m.fns (M.fsig f) with
      | none => simp
      | some d => exact h.points _ (dlookup_some hl)
    obtain ⟨h1, h2⟩ := keys_dinsert h.fkeys (M.fsig f)
      (dinsert ((dlookup m.fns (M.fsig f)).getD []) cs.dropLast (cs.getLastD default))
    refine ⟨h.pkeys, h1, fun kv hkv => ?_, h.psigs, fun kv hkv => ?_⟩
    · rcases h2 kv hkv with rfl | h3
      · exact hd _ _
      · exact h.points kv h3
    · rcases h2 kv hkv with rfl | h3
      · exact ⟨f, rfl⟩
      · exact h.fsigs kv h3
  | removePred p =>
    simp only [MState.step, MState.removeSymbol]
    split
    · obtain ⟨h1, h2⟩ := keys_ddelete h.fkeys (M.psig p)
      exact ⟨h.pkeys, h1, fun kv hkv => h.points kv (h2 kv hkv), h.psigs, fun kv hkv => h.fsigs kv (h2 kv hkv)⟩
    split
    · obtain ⟨h1, h2⟩ := keys_ddelete h.pkeys (M.psig p)
      exact ⟨h1, h.fkeys, h.points, fun kv hkv => h.psigs kv (h2 kv hkv), h.fsigs⟩
    · exact h
  | removeFun p =>
    simp only [MState.step, MState.removeSymbol]
    split
    · obtain ⟨h1, h2⟩ := keys_ddelete h.fkeys (M.fsig p)
      exact ⟨h.pkeys, h1, fun kv hkv => h.points kv (h2 kv hkv), h.psigs, fun kv hkv => h.fsigs kv (h2 kv hkv)⟩
    split
    · obtain ⟨h1, h2⟩ := keys_ddelete h.pkeys (M.fsig p)
      exact ⟨h1, h.fkeys, h.points, fun kv hkv => h.psigs kv (h2 kv hkv), h.fsigs⟩
    · exact h

theorem stateWF_run (ops : List MOp) : ∀ {m : MState}, StateWF M m → StateWF M (m.run M ops) := by
  induction ops with
  | nil => intro m h; exact h
  | cons o ops ih => intro m h; exact ih (stateWF_step h o)

end

/-- The elements of an initial state, written and read. -/
theorem init_read {L : RLang} {contains : String → Name → Bool} {interval : String → Bool} (real : String → Bool)
    {m : MState} (hm : StateWF (L.toM contains interval) m)
    (hapart : ∀ n, L.preds n = none ∨ L.funs n = none)
    (hp : ∀ p pt, m.holds (L.toM contains interval) p pt = true → AtomExpressible (L.toM contains interval) L p pt)
    (hf : ∀ f pt v, m.value (L.toM contains interval) f pt = .ok v → ValueExpressible (L.toM contains interval) L f pt v)
    (hrefl : ∀ s, L.isSub s s = true) :
    ∃ xs m', List.Forall₂ TextOf (initTexts real m) xs ∧
      readInitGo (L.toM contains interval) L real .empty xs = .ok m' ∧ StateWF (L.toM contains interval) m' ∧
      (∀ p pt, m'.holds (L.toM contains interval) p pt = m.holds (L.toM contains interval) p pt) ∧
      (∀ f pt, m'.value (L.toM contains interval) f pt = m.value (L.toM contains interval) f pt) := by
  generalize hM : L.toM contains interval = M at *
  -- every stored entry is expressible
  have hv : ∀ e ∈ m.values, ∃ f, e.1 = M.fsig f ∧ ValueExpressible M L f e.2.1 e.2.2 := by
    intro e he
    obtain ⟨k, pt, c⟩ := e
    obtain ⟨d, h1, h2⟩ := mem_values.1 he
    obtain ⟨f, hk⟩ := hm.fsigs _ h1
    simp only at hk
    subst hk
    exact ⟨f, rfl, hf f pt c ((values_spec hm).2 he)⟩
  have hq : ∀ e ∈ m.facts, ∃ p, e.1 = M.psig p ∧ AtomExpressible M L p e.2 := by
    intro e he
    obtain ⟨k, pt⟩ := e
    obtain ⟨d, h1, h2⟩ := mem_facts.1 he
    obtain ⟨p, hk⟩ := hm.psigs _ h1
    simp only at hk
    subst hk
    exact ⟨p, rfl, hp p pt ((facts_spec hm).2 he)⟩
  have hps : ∀ p ss, L.preds p = some ss → M.psorts p = ss := by
    intro p ss h; subst hM; simp [RLang.toM, h]
  have hfs : ∀ f ss s, L.funs f = some (ss, s) → M.fsorts f = ss ++ [s] := by
    intro f ss s h; subst hM; simp [RLang.toM, h]
  have hsub : M.isSub = L.isSub := by subst hM; rfl
  have hfd : ∀ f pt v, ValueExpressible M L f pt v → PointDenotes M (pt.map .const ++ [.const v]) (M.fsorts f) (pt ++ [v]) := by
    rintro f pt v ⟨_, ss, s, hs, h1, _, h2⟩
    rw [hfs f ss s hs]
    have h3 : List.Forall₂ (fun (c : Const) s => M.isSub c.sort s = true) (pt ++ [v]) (ss ++ [s]) := by
      refine List.rel_append (h1.imp fun c s hcs => ?_) (.cons ?_ .nil)
      · rw [hsub, hcs.2]; exact hrefl _
      · rw [hsub]; exact h2
    simpa using initPointDenotes_consts h3
  have hpd : ∀ p pt, AtomExpressible M L p pt → PointDenotes M (pt.map .const) (M.psorts p) pt := by
    rintro p pt ⟨_, ss, hs, h1⟩
    rw [hps p ss hs]
    exact initPointDenotes_consts (h1.imp fun c s hcs => by rw [hsub]; exact hcs.2)
  -- the trees
  have t1 : ∀ es : List (List String × List Const × Const), (∀ e ∈ es, e ∈ m.values) →
      ∃ xs, List.Forall₂ TextOf (es.map (fun e => printInitFun real (e.1.headD "") e.2.1 e.2.2)) xs ∧
        List.Forall₂ (fun x o => initOp M L real x = .ok (some o)) xs (es.map setCall) := by
    intro es
    induction es with
    | nil => intro _; exact ⟨[], .nil, .nil⟩
    | cons e es ih =>
      intro h
      obtain ⟨xs, h1, h2⟩ := ih (fun e he => h e (by simp [he]))
      obtain ⟨f, hk, hx⟩ := hv e (h e (by simp))
      obtain ⟨x, h3, h4⟩ := initFun_read (real := real) hx
      refine ⟨x :: xs, .cons ?_ h1, .cons ?_ h2⟩
      · simpa [hk, MLang.fsig] using h3
      · simpa [setCall, hk, MLang.fsig] using h4
  have t2 : ∀ es : List (List String × List Const), (∀ e ∈ es, e ∈ m.facts) →
      ∃ xs, List.Forall₂ TextOf (es.map (fun e => printInitPred real (e.1.headD "") e.2)) xs ∧
        List.Forall₂ (fun x o => initOp M L real x = .ok (some o)) xs (es.map addCall) := by
    intro es
    induction es with
    | nil => intro _; exact ⟨[], .nil, .nil⟩
    | cons e es ih =>
      intro h
      obtain ⟨xs, h1, h2⟩ := ih (fun e he => h e (by simp [he]))
      obtain ⟨p, hk, hx⟩ := hq e (h e (by simp))
      obtain ⟨x, h3, h4⟩ := initPred_read (real := real) hx
      refine ⟨x :: xs, .cons ?_ h1, .cons ?_ h2⟩
      · simpa [hk, MLang.psig] using h3
      · simpa [addCall, hk, MLang.psig] using h4
  obtain ⟨xs, a1, a2⟩ := t1 m.values (fun _ h => h)
  obtain ⟨ys, b1, b2⟩ := t2 m.facts (fun _ h => h)
  -- the calls
  have hops : ∀ o ∈ m.values.map setCall ++ m.facts.map addCall,
      (∃ f pt v, o = .set f false (pt.map .const) (.const v) ∧ (M.fsig f, pt, v) ∈ m.values) ∨
      (∃ p pt, o = .add (.user p) (pt.map .const) ∧ (M.psig p, pt) ∈ m.facts) := by
    intro o ho
    rcases List.mem_append.1 ho with ho | ho
    · obtain ⟨⟨k, pt, c⟩, he, rfl⟩ := List.mem_map.1 ho
      obtain ⟨f, hk, _⟩ := hv _ he
      simp only at hk
      subst hk
      exact .inl ⟨f, pt, c, rfl, he⟩
    · obtain ⟨⟨k, pt⟩, he, rfl⟩ := List.mem_map.1 ho
      obtain ⟨p, hk, _⟩ := hq _ he
      simp only at hk
      subst hk
      exact .inr ⟨p, pt, rfl, he⟩
  have hvx : ∀ f pt v, (M.fsig f, pt, v) ∈ m.values → ValueExpressible M L f pt v :=
    fun f pt v h => hf f pt v ((values_spec hm).2 h)
  have hqx : ∀ p pt, (M.psig p, pt) ∈ m.facts → AtomExpressible M L p pt :=
    fun p pt h => hp p pt ((facts_spec hm).2 h)
  have hok : ∀ o ∈ m.values.map setCall ++ m.facts.map addCall, ∀ m' : MState, (m'.step M o).2 = none := by
    intro o ho m'
    rcases hops o ho with ⟨f, pt, v, rfl, he⟩ | ⟨p, pt, rfl, he⟩
    · refine ((C18_accepts M m').2.2.2 f _ _ ?_ (by simp)).2 ⟨_, hfd f pt v (hvx f pt v he)⟩
      intro a ha
      obtain ⟨c, _, rfl⟩ := List.mem_map.1 ha
      rfl
    · exact ((C18_accepts M m').1 p _).2 ⟨_, hpd p pt (hqx p pt he)⟩
  have hrun := readInitGo_run (real := real) (List.rel_append a2 b2) hok .empty
  have hapartO : NamesApart (m.values.map setCall ++ m.facts.map addCall) := by
    intro o ho o' ho' p f h1 h2
    rcases hops o ho with ⟨f1, pt1, v1, rfl, he1⟩ | ⟨p1, pt1, rfl, he1⟩
    · simp [MOp.predName] at h1
    rcases hops o' ho' with ⟨f2, pt2, v2, rfl, he2⟩ | ⟨p2, pt2, rfl, he2⟩
    · simp only [MOp.predName, Option.some.injEq] at h1
      simp only [MOp.funName, Option.some.injEq] at h2
      subst h1
      subst h2
      rintro rfl
      obtain ⟨_, ss, hs, _⟩ := hqx _ _ he1
      obtain ⟨_, ss', s', hs', _⟩ := hvx _ _ _ he2
      rcases hapart p1 with h | h
      · simp [h] at hs
      · simp [h] at hs'
    · simp [MOp.funName] at h2
  refine ⟨xs ++ ys, MState.empty.run M (m.values.map setCall ++ m.facts.map addCall), ?_, hrun,
    stateWF_run _ (stateWF_empty M), ?_, ?_⟩
  · rw [initTexts_eq]
    exact List.rel_append a1 b1
  · intro p pt
    rw [Bool.eq_iff_iff, C18_holds M _ hapartO p pt, facts_spec hm]
    constructor
    · rintro ⟨pre, o, post, he, ⟨args, rfl, hd⟩, _⟩
      have ho : MOp.add (.user p) args ∈ m.values.map setCall ++ m.facts.map addCall := by rw [he]; simp
      rcases hops _ ho with ⟨f1, pt1, v1, h1, _⟩ | ⟨p1, pt1, h1, he1⟩
      · cases h1
      · cases h1
        rw [initPointDenotes_consts_eq hd]
        exact he1
    · intro h
      have ho : MOp.add (.user p) (pt.map .const) ∈ m.values.map setCall ++ m.facts.map addCall :=
        List.mem_append_right _ (List.mem_map.2 ⟨_, h, rfl⟩)
      obtain ⟨pre, post, he⟩ := List.append_of_mem ho
      refine ⟨pre, _, post, he, ⟨_, rfl, hpd p pt (hqx p pt h)⟩, ?_⟩
      intro o ho' hc
      have ho2 : o ∈ m.values.map setCall ++ m.facts.map addCall := by rw [he]; simp [ho']
      rcases hops o ho2 with ⟨f1, pt1, v1, rfl, _⟩ | ⟨p1, pt1, rfl, _⟩
      · rcases hc with ⟨args, hc | hc, _⟩ | hc <;> cases hc
      · rcases hc with ⟨args, hc | hc, _⟩ | hc <;> cases hc
  · intro f pt
    have key : ∀ c, (MState.empty.run M (m.values.map setCall ++ m.facts.map addCall)).value M f pt = .ok c ↔
        m.value M f pt = .ok c := by
      intro c
      rw [C18_value M _ hapartO f pt c, values_spec hm]
      constructor
      · rintro ⟨pre, o, post, he, ⟨args, v, rfl, _, _, hd⟩, _⟩
        have ho : MOp.set f false args v ∈ m.values.map setCall ++ m.facts.map addCall := by rw [he]; simp
        rcases hops _ ho with ⟨f1, pt1, v1, h1, he1⟩ | ⟨p1, pt1, h1, _⟩
        · cases h1
          have hd' : PointDenotes M ((pt1 ++ [v1]).map .const) (M.fsorts f) (pt ++ [c]) := by simpa using hd
          have := initPointDenotes_consts_eq hd'
          obtain ⟨e1, e2⟩ := List.append_inj' this rfl
          cases e2
          rw [e1]
          exact he1
        · cases h1
      · intro h
        obtain ⟨pre, post, he⟩ := List.append_of_mem h
        refine ⟨pre.map setCall, setCall (M.fsig f, pt, c), post.map setCall ++ m.facts.map addCall, by simp [he],
          ⟨_, _, rfl, ?_, by simp, hfd f pt c (hvx f pt c h)⟩, ?_⟩
        · intro a ha
          obtain ⟨c, _, rfl⟩ := List.mem_map.1 ha
          rfl
        · intro o ho hov
          have ho2 : o ∈ m.values.map setCall ++ m.facts.map addCall := by
            rw [he]; simp only [List.map_append, List.map_cons, List.append_assoc, List.cons_append, List.mem_append,
              List.mem_cons]
            rcases List.mem_append.1 ho with h | h
            · exact .inr (.inr (.inl h))
            · exact .inr (.inr (.inr h))
          rcases hov with ⟨c', args, v, rfl, _, _, hd⟩ | rfl
          · rcases List.mem_append.1 ho with ho | ho
            · obtain ⟨⟨k, pt', v'⟩, he', h1⟩ := List.mem_map.1 ho
              simp only [setCall] at h1
              injection h1 with h1 h2 h3 h4
              subst h3
              subst h4
              have hd' : PointDenotes M ((pt' ++ [v']).map .const) (M.fsorts f) (pt ++ [c']) := by simpa using hd
              obtain ⟨e1, e2⟩ := List.append_inj' (initPointDenotes_consts_eq hd') rfl
              have hmem : (k, pt', v') ∈ m.values := by rw [he]; simp [he']
              obtain ⟨f', hk, _⟩ := hv _ hmem
              simp only at hk
              subst hk
              simp only [MLang.fsig, List.headD_cons] at h1
              subst h1
              have hn := values_nodup hm
              rw [he] at hn
              simp only [List.map_append, List.map_cons] at hn
              have hn2 := (List.nodup_append.1 hn).2.1
              rw [List.nodup_cons] at hn2
              exact hn2.1 (List.mem_map.2 ⟨_, he', by simp [e1, MLang.fsig]⟩)
            · obtain ⟨e, _, h1⟩ := List.mem_map.1 ho
              cases h1
          · rcases hops _ ho2 with ⟨f1, pt1, v1, h1, _⟩ | ⟨p1, pt1, h1, _⟩ <;> cases h1
    cases h1 : m.value M f pt with
    | ok c => exact (key c).2 h1
    | error e =>
      have h2 : m.value M f pt = .error .keyError := (C18_value_error M m f pt).1 (fun c hc => by simp [hc] at h1)
      have h3 := (C18_value_error M (MState.empty.run M (m.values.map setCall ++ m.facts.map addCall)) f pt).1
        (fun c hc => by rw [(key c).1 hc] at h2; cases h2)
      rw [h3, ← h1, h2]

/-- C53. Take any state built by calls of the API, failing calls included, over a language in which no name is both a
predicate and a function. Whenever all its atoms and values can be written in PDDL (`AtomExpressible`,
`ValueExpressible`), the reader accepts what the writer prints and obtains a state in which exactly the same atoms hold
and every function has the same value (or no value) at every point. What is missing for the full claim are the states
with atoms or values that PDDL text cannot express; see the theorems below. -/
theorem C53_init_round_trip_partial (L : RLang) (contains : String → Name → Bool) (interval real : String → Bool)
    (hapart : ∀ n, L.preds n = none ∨ L.funs n = none) (hrefl : ∀ s, L.isSub s s = true)
    (ops : List MOp) (m : MState) (hm : m = MState.empty.run (L.toM contains interval) ops)
    (hp : ∀ p pt, m.holds (L.toM contains interval) p pt = true → AtomExpressible (L.toM contains interval) L p pt)
    (hf : ∀ f pt v, m.value (L.toM contains interval) f pt = .ok v → ValueExpressible (L.toM contains interval) L f pt v) :
    ∃ m', readInitText (L.toM contains interval) L real (printInit real m) = .ok m' ∧
      (∀ p pt, m'.holds (L.toM contains interval) p pt = m.holds (L.toM contains interval) p pt) ∧
      (∀ f pt, m'.value (L.toM contains interval) f pt = m.value (L.toM contains interval) f pt) := by
  have hwf : StateWF (L.toM contains interval) m := hm ▸ stateWF_run ops (stateWF_empty _)
  obtain ⟨xs, m', h1, h2, _, h3, h4⟩ := init_read real hwf hapart hp hf hrefl
  exact ⟨m', by simp only [readInitText, printInit, readTrees_textsOf (textsOf_lines2 h1), h2], h3, h4⟩

/-! ### A state that meets the hypotheses -/

/-- The language of the examples for C51, with functions between arbitrary objects and a bounded counter. -/
def exPddlI : RLang :=
  { exPddl with
    funs := fun s => if s = "at" then some (["object"], "object") else exPddl.funs s
    isSub := fun a b => exPddl.isSub a b || (a == "counter" && (b == "Integer" || b == "Real")) }

def exContains : String → Name → Bool := fun _ n => n == .str "b1" || n == .str "b2"
def exInterval : String → Bool := fun s => s == "Integer" || s == "Real" || s == "counter"
def exReal : String → Bool := fun s => s == "Real"

abbrev exM : MLang := exPddlI.toM exContains exInterval

/-- Calls of the API: atoms, one of which is removed again, values of numeric functions, one of which is overwritten, and a
call that fails. -/
def exCalls : List MOp :=
  [.add (.user "on") [.const exB1, .const exB2], .add (.user "clear") [.const exB2], .add (.user "clear") [.const exB1],
   .remove "clear" [.const exB2], .set "weight" false [.const exB1] (.const ⟨.int 7, "Integer"⟩),
   .set "weight" false [.const exB1] (.const ⟨.int (-12), "Integer"⟩), .set "speed" false [] (.const ⟨.int 3, "Real"⟩),
   .add (.user "on") [.const exB1]]

/-- The text of the state. -/
example : printInit exReal (MState.empty.run exM exCalls) = "(= (weight b1) -12)
        (= (speed ) 3.0)
        (on b1 b2)
        (clear b1)".toList := by rfl

/-- The hypotheses of C53 are met. -/
example : (∀ n, exPddlI.preds n = none ∨ exPddlI.funs n = none) ∧ (∀ s, exPddlI.isSub s s = true) ∧
    (∀ p pt, (MState.empty.run exM exCalls).holds exM p pt = true → AtomExpressible exM exPddlI p pt) ∧
    (∀ f pt v, (MState.empty.run exM exCalls).value exM f pt = .ok v → ValueExpressible exM exPddlI f pt v) := by
  have hwf : StateWF exM (MState.empty.run exM exCalls) := stateWF_run exCalls (stateWF_empty _)
  have hb1 : PName "b1" := exPName 'b' ['1'] rfl (by decide) (by decide) (by decide) (by decide)
  have hb2 : PName "b2" := exPName 'b' ['2'] rfl (by decide) (by decide) (by decide) (by decide)
  refine ⟨?_, ?_, ?_, ?_⟩
  · intro n
    simp only [exPddlI, exPddl]
    by_cases h1 : n = "on"
    · subst h1; right; rfl
    by_cases h2 : n = "clear"
    · subst h2; right; rfl
    by_cases h3 : n = "heavier"
    · subst h3; right; rfl
    by_cases h4 : n = "Done"
    · subst h4; right; rfl
    left; simp [h1, h2, h3, h4]
  · intro s; simp [exPddlI, exPddl]
  · intro p pt h
    rw [facts_spec hwf] at h
    have e : (MState.empty.run exM exCalls).facts =
      [(["on", "block", "object"], [exB1, exB2]), (["clear", "block"], [exB1])] := by rfl
    rw [e] at h
    simp only [List.mem_cons, Prod.mk.injEq, MLang.psig, List.cons.injEq, List.not_mem_nil, or_false] at h
    rcases h with ⟨⟨rfl, _⟩, rfl⟩ | ⟨⟨rfl, _⟩, rfl⟩
    · refine ⟨exPName 'o' ['n'] rfl (by decide) (by decide) (by decide) (by decide), ["block", "object"], rfl, ?_⟩
      exact .cons ⟨.inl ⟨"b1", rfl, hb1, rfl⟩, by decide⟩ (.cons ⟨.inl ⟨"b2", rfl, hb2, rfl⟩, by decide⟩ .nil)
    · refine ⟨exPName 'c' ['l','e','a','r'] rfl (by decide) (by decide) (by decide) (by decide), ["block"], rfl, ?_⟩
      exact .cons ⟨.inl ⟨"b1", rfl, hb1, rfl⟩, by decide⟩ .nil
  · intro f pt v h
    rw [values_spec hwf] at h
    have e : (MState.empty.run exM exCalls).values =
      [(["weight", "block", "Integer"], [exB1], ⟨.int (-12), "Integer"⟩), (["speed", "Real"], [], ⟨.int 3, "Real"⟩)] := by rfl
    rw [e] at h
    simp only [List.mem_cons, Prod.mk.injEq, MLang.fsig, List.cons.injEq, List.not_mem_nil, or_false] at h
    rcases h with ⟨⟨rfl, _⟩, rfl, rfl⟩ | ⟨⟨rfl, _⟩, rfl, rfl⟩
    · refine ⟨exPName 'w' ['e','i','g','h','t'] rfl (by decide) (by decide) (by decide) (by decide), ["block"], "Integer", rfl,
        .cons ⟨.inl ⟨"b1", rfl, hb1, rfl⟩, rfl⟩ .nil, .inr ⟨-12, rfl, rfl, rfl, rfl⟩, by decide⟩
    · exact ⟨exPName 's' ['p','e','e','d'] rfl (by decide) (by decide) (by decide) (by decide), [], "Real", rfl, .nil,
        .inr ⟨3, rfl, rfl, rfl, rfl⟩, by decide⟩

/-! ### What the full claim misses -/

/-- The value of a function at an object of a proper subsort of the declared sort is printed, and makes the reader fail
with a TypeError (reader.py:375, sorts.py:60). -/
theorem C53_subsort_argument_refuted :
    (MState.step exM .empty (.set "at" false [.const exB1] (.const exB2))).2 = none ∧
    readInitText exM exPddlI exReal (printInit exReal (MState.empty.run exM [.set "at" false [.const exB1] (.const exB2)])) =
      .error .typeError := ⟨rfl, rfl⟩

/-- A number of a subsort of the declared sort is silently read as a number of the declared sort, which is a different
constant: the atom that held does not hold any more. -/
theorem C53_number_subsort_refuted :
    ∃ m m', m = MState.empty.run exM [.add (.user "heavier") [.const ⟨.int 3, "counter"⟩]] ∧
      readInitText exM exPddlI exReal (printInit exReal m) = .ok m' ∧
      m.holds exM "heavier" [⟨.int 3, "counter"⟩] = true ∧ m'.holds exM "heavier" [⟨.int 3, "counter"⟩] = false :=
  ⟨_, MState.empty.run exM [.add (.user "heavier") [.const ⟨.int 3, "Integer"⟩]], rfl, rfl, by decide, by decide⟩

/-- Objects with upper-case letters are not found. -/
theorem C53_upper_case_refuted :
    readInitText exM exPddlI exReal
      (printInit exReal (MState.empty.run exM [.add (.user "clear") [.const ⟨.str "B3", "block"⟩]])) =
      .error .undefinedVariable := rfl

end Tarski

import Verif.RegText
import Verif.Props.ExprText
/-! C118: the texts of derived predicates, reactions, differential constraints and sensing actions. -/
namespace Tarski

variable {A : Term → Prop}

/-- The parameters belong to the stock of variables and constants. -/
def ParamsOver (A : Term → Prop) (ps : List Var) : Prop := ∀ v ∈ ps, A (.var v)

/-! ### Lemmas -/

theorem param_name (hA : LeavesApart A) {v : Var} (h : A (.var v)) : ShownName (paramName v) := by
  have := hA.name _ h
  rwa [showT] at this

theorem param_apart (hA : LeavesApart A) {v w : Var} (hv : A (.var v)) (hw : A (.var w)) (h : paramName v = paramName w) : v = w := by
  have := hA.apart _ _ hv hw (by rw [showT, showT]; exact h)
  injection this

theorem ShownName.app {w x : Text} (hw : ShownName w) (hx : ∀ c ∈ x, c ≠ '(' ∧ c ≠ ')' ∧ c ≠ ',' ∧ c ≠ ' ') : ShownName (w ++ x) :=
  ⟨by have := hw.1; simp [this], fun c hc => (List.mem_append.1 hc).elim (hw.2 c) (hx c)⟩

/-- The same word, followed by the same text. -/
theorem word_then {w v : Text} (hw : ShownName w) (hv : ShownName v) {x : Text} (hx : ∀ c ∈ x, c ≠ '(' ∧ c ≠ ')' ∧ c ≠ ',' ∧ c ≠ ' ') {r s : Text}
    (hr : StopsAt r) (hs : StopsAt s) (h : w ++ (x ++ r) = v ++ (x ++ s)) : w = v ∧ r = s := by
  obtain ⟨e1, e2⟩ := (hw.app hx).split (hv.app hx) hr hs (by simpa using h)
  exact ⟨List.append_cancel_right e1, e2⟩

theorem params_eq (hA : LeavesApart A) : ∀ {ps qs : List Var}, ParamsOver A ps → ParamsOver A qs → List.Forall₂ (fun v w => paramName v = paramName w) ps qs → ps = qs
  | [], [], _, _, _ => rfl
  | v :: ps, w :: qs, hp, hq, .cons h t => by
    rw [param_apart hA (hp v (by simp)) (hq w (by simp)) h, params_eq hA (fun x hx => hp x (by simp [hx])) (fun x hx => hq x (by simp [hx])) t]

theorem regIdent_read (hA : LeavesApart A) {n m : String} {ps qs : List Var} (hn : ShownName n.toList) (hm : ShownName m.toList) (hp : ParamsOver A ps) (hq : ParamsOver A qs)
    (h : regIdent n ps = regIdent m qs) : n = m ∧ ps = qs := by
  obtain ⟨e1, e2⟩ := hn.split hm (r := '(' :: (joinWith [',', ' '] (ps.map paramName) ++ ([')'] ++ []))) (s := '(' :: (joinWith [',', ' '] (qs.map paramName) ++ ([')'] ++ [])))
    (stops_open _) (stops_open _) (by simpa [regIdent] using h)
  injection e2 with _ e2
  obtain ⟨e3, -⟩ := join_split' paramName (fun v w => paramName v = paramName w) [',', ' '] [')'] (fun _ => follows_comma _) (fun _ => follows_close _) (by intro x y; simp) (by
    intro v hv x y e
    have hn := param_name hA (hv.elim (hp v) (hq v))
    cases hl : paramName v with
    | nil => exact hn.1 hl
    | cons c l =>
      rw [hl] at hn
      simp only [hl, List.cons_append, List.cons.injEq] at e
      exact (hn.2 c (by simp)).2.1 e.1) (fun v hv w hw r s hr hs h => (param_name hA (hp v hv)).split (param_name hA (hq w hw)) hr.stops hs.stops h) e2
  exact ⟨String.toList_injective e1, params_eq hA hp hq e3⟩

/-- Words with blanks between them, before `x` and an opening parenthesis. -/
theorem words_read {x : Text} (hx : ∀ c ∈ x, c ≠ '(' ∧ c ≠ ')' ∧ c ≠ ',' ∧ c ≠ ' ') {r s : Text} : ∀ {l l' : List Text}, (∀ w ∈ l, ShownName w) → (∀ w ∈ l', ShownName w) →
    joinWith [' '] l ++ (x ++ '(' :: r) = joinWith [' '] l' ++ (x ++ '(' :: s) → l = l' ∧ r = s
  | [], [], _, _, h => ⟨rfl, by simpa [joinWith] using h⟩
  | [], [w], _, h', h => by
    have hw := h' w (by simp)
    obtain ⟨e, -⟩ := word_split hx (hw.app hx).2 (stops_open r) (stops_open s) (by simpa [joinWith] using h)
    exact absurd (by simpa using e) hw.1
  | [], w :: w' :: l', _, h', h => by
    have hw := h' w (by simp)
    obtain ⟨-, e⟩ := word_split hx hw.2 (r := '(' :: r) (s := ' ' :: (joinWith [' '] (w' :: l') ++ (x ++ '(' :: s))) (stops_open r) (follows_blank _).stops (by simpa [joinWith] using h)
    exact absurd (List.cons.inj e).1 (by decide)
  | [w], [], h', _, h => by
    have hw := h' w (by simp)
    obtain ⟨e, -⟩ := word_split hx (hw.app hx).2 (stops_open s) (stops_open r) (by simpa [joinWith] using h.symm)
    exact absurd (by simpa using e) hw.1
  | w :: w' :: l', [], h', _, h => by
    have hw := h' w (by simp)
    obtain ⟨-, e⟩ := word_split hx hw.2 (r := '(' :: s) (s := ' ' :: (joinWith [' '] (w' :: l') ++ (x ++ '(' :: r))) (stops_open s) (follows_blank _).stops (by simpa [joinWith] using h.symm)
    exact absurd (List.cons.inj e).1 (by decide)
  | [w], [v], hw, hv, h => by
    obtain ⟨e1, e2⟩ := word_then (hw w (by simp)) (hv v (by simp)) hx (stops_open r) (stops_open s) (by simpa [joinWith] using h)
    exact ⟨by rw [e1], (List.cons.inj e2).2⟩
  | [w], v :: v' :: l', hw, hv, h => by
    obtain ⟨-, e⟩ := ((hw w (by simp)).app hx).split (hv v (by simp)) (r := '(' :: r) (s := ' ' :: (joinWith [' '] (v' :: l') ++ (x ++ '(' :: s))) (stops_open r) (follows_blank _).stops
      (by simpa [joinWith] using h)
    exact absurd (List.cons.inj e).1 (by decide)
  | w :: w' :: l, [v], hw, hv, h => by
    obtain ⟨-, e⟩ := ((hv v (by simp)).app hx).split (hw w (by simp)) (r := '(' :: s) (s := ' ' :: (joinWith [' '] (w' :: l) ++ (x ++ '(' :: r))) (stops_open s) (follows_blank _).stops
      (by simpa [joinWith] using h.symm)
    exact absurd (List.cons.inj e).1 (by decide)
  | w :: w' :: l, v :: v' :: l', hw, hv, h => by
    obtain ⟨e1, e2⟩ := (hw w (by simp)).split (hv v (by simp)) (r := ' ' :: (joinWith [' '] (w' :: l) ++ (x ++ '(' :: r))) (s := ' ' :: (joinWith [' '] (v' :: l') ++ (x ++ '(' :: s)))
      (follows_blank _).stops (follows_blank _).stops (by simpa [joinWith] using h)
    obtain ⟨e3, e4⟩ := words_read hx (l := w' :: l) (l' := v' :: l') (fun z hz => hw z (List.mem_cons_of_mem _ hz)) (fun z hz => hv z (List.mem_cons_of_mem _ hz)) (List.cons.inj e2).2
    exact ⟨by rw [e1, e3], e4⟩

/-- Applications of functions end with a parenthesis: anything may follow. -/
theorem app_text_read (hA : LeavesApart A) {f g : String} {ts us : List Term} (ht : OverT A (.app f ts)) (hu : OverT A (.app g us)) {r s : Text}
    (h : showT (.app f ts) ++ r = showT (.app g us) ++ s) : tuplesT (.app f ts) = tuplesT (.app g us) ∧ r = s := by
  have nl : ∀ {f : String} {ts : List Term}, ¬ A (.app f ts) := fun h => by rcases hA.leaf _ h with ⟨v, e⟩ | ⟨n, s, e⟩ <;> cases e
  cases ht with
  | leaf h => exact absurd h nl
  | app hf _ hts =>
    cases hu with
    | leaf h => exact absurd h nl
    | app hg _ hus =>
      obtain ⟨e1, e2⟩ := hf.split hg (r := '(' :: (joinWith [',', ' '] (showTs ts) ++ ')' :: r)) (s := '(' :: (joinWith [',', ' '] (showTs us) ++ ')' :: s))
        (stops_open _) (stops_open _) (by simpa [showT] using h)
      injection e2 with _ e2
      obtain ⟨e3, e4⟩ := args_split hA (.inl rfl) hts hus (fun t ht u hu r s hr hs h => sameT hA (hts t ht) (hus u hu) hr hs h) e2
      exact ⟨by rw [tuplesT, tuplesT, e3, String.toList_injective e1], e4⟩

theorem forall2_of_map : ∀ {ps qs : List Var}, ps.map paramName = qs.map paramName → List.Forall₂ (fun v w => paramName v = paramName w) ps qs
  | [], [], _ => .nil
  | [], _ :: _, h => by simp at h
  | _ :: _, [], h => by simp at h
  | v :: ps, w :: qs, h => by
    simp only [List.map_cons, List.cons.injEq] at h
    exact .cons h.1 (forall2_of_map h.2)

/-! ### C118 -/

/-- C118, identifiers: `ident()` of two derived predicates, reactions, differential constraints or sensing actions is the same exactly when they have the
same name and parameters. -/
theorem C118_ident_partial (hA : LeavesApart A) {n m : String} {ps qs : List Var} (hn : ShownName n.toList) (hm : ShownName m.toList) (hp : ParamsOver A ps) (hq : ParamsOver A qs) :
    regIdent n ps = regIdent m qs ↔ n = m ∧ ps = qs :=
  ⟨regIdent_read hA hn hm hp hq, fun ⟨h1, h2⟩ => by rw [h1, h2]⟩

/-- C118, derived predicates: `str()` is the same exactly when the name, the parameters and the formula (up to the Python containers of subformulas) are. -/
theorem C118_derived_partial (hA : LeavesApart A) {d e : Derived} (hd : ShownName d.name.toList ∧ ParamsOver A d.params ∧ OverF A d.formula)
    (he : ShownName e.name.toList ∧ ParamsOver A e.params ∧ OverF A e.formula) :
    derivedShown d = derivedShown e ↔ d.name = e.name ∧ d.params = e.params ∧ tuplesF d.formula = tuplesF e.formula := by
  constructor
  · intro h
    have h' : d.name.toList ++ ' ' :: (joinWith [' '] (d.params.map paramName) ++ ([':', '\n', 'f', 'o', 'r', 'm', 'u', 'l', 'a', '='] ++ '(' :: (showF d.formula ++ [')']))) =
        e.name.toList ++ ' ' :: (joinWith [' '] (e.params.map paramName) ++ ([':', '\n', 'f', 'o', 'r', 'm', 'u', 'l', 'a', '='] ++ '(' :: (showF e.formula ++ [')']))) := by
      have : [':', '\n', 'f', 'o', 'r', 'm', 'u', 'l', 'a', '=', '('] = [':', '\n', 'f', 'o', 'r', 'm', 'u', 'l', 'a', '='] ++ ['('] := by decide
      simpa [derivedShown] using h
    obtain ⟨e1, e2⟩ := hd.1.split he.1 (follows_blank _).stops (follows_blank _).stops h'
    obtain ⟨e3, e4⟩ := words_read (by decide) (fun w hw => by obtain ⟨v, hv, rfl⟩ := List.mem_map.1 hw; exact param_name hA (hd.2.1 v hv))
      (fun w hw => by obtain ⟨v, hv, rfl⟩ := List.mem_map.1 hw; exact param_name hA (he.2.1 v hv)) (List.cons.inj e2).2
    refine ⟨String.toList_injective e1, ?_, (sameF hA hd.2.2 he.2.2 (follows_close _) (follows_close _) e4).1⟩
    exact params_eq hA hd.2.1 he.2.1 (forall2_of_map e3)
  · rintro ⟨h1, h2, h3⟩
    rw [derivedShown, derivedShown, h1, h2, ← showF_tuples d.formula, h3, showF_tuples]

/-- C118, reactions: `str()` is the same exactly when the name, the condition and the effect are: the parameters are not printed. -/
theorem C118_reaction_partial (hA : LeavesApart A) {d e : Reaction} (hd : ShownName d.name.toList ∧ OverF A d.cond ∧ OverE A d.eff)
    (he : ShownName e.name.toList ∧ OverF A e.cond ∧ OverE A e.eff) :
    reactionShown d = reactionShown e ↔ d.name = e.name ∧ tuplesF d.cond = tuplesF e.cond ∧ tuplesE d.eff = tuplesE e.eff := by
  constructor
  · intro h
    have h' : d.name.toList ++ ([':', '\n', 'c', 'o', 'n', 'd', ':'] ++ ' ' :: '(' :: (showF d.cond ++ ')' :: (['\n', 'e', 'f', 'f', ':', ' ', '('] ++ (showE d.eff ++ [')'])))) =
        e.name.toList ++ ([':', '\n', 'c', 'o', 'n', 'd', ':'] ++ ' ' :: '(' :: (showF e.cond ++ ')' :: (['\n', 'e', 'f', 'f', ':', ' ', '('] ++ (showE e.eff ++ [')'])))) := by
      simpa [reactionShown] using h
    obtain ⟨e1, e2⟩ := word_then hd.1 he.1 (by decide) (follows_blank _).stops (follows_blank _).stops h'
    obtain ⟨e3, e4⟩ := sameF hA hd.2.1 he.2.1 (follows_close _) (follows_close _) (List.cons.inj (List.cons.inj e2).2).2
    have e5 := List.append_cancel_left (List.cons.inj e4).2
    exact ⟨String.toList_injective e1, e3, (readE hA _ _ _ (Nat.lt_succ_self _) hd.2.2 he.2.2 _ _ (follows_close _) (follows_close _) e5).1⟩
  · rintro ⟨h1, h2, h3⟩
    rw [reactionShown, reactionShown, h1, ← showF_tuples d.cond, h2, showF_tuples, ← showE_tuples d.eff, h3, showE_tuples]

/-- C118, sensing actions: `str()` is the same exactly when the name, the condition and the observation are: the parameters are not printed. -/
theorem C118_sensor_partial (hA : LeavesApart A) {d e : Sensor} (hd : ShownName d.name.toList ∧ OverF A d.cond ∧ OverF A d.obs)
    (he : ShownName e.name.toList ∧ OverF A e.cond ∧ OverF A e.obs) :
    sensorShown d = sensorShown e ↔ d.name = e.name ∧ tuplesF d.cond = tuplesF e.cond ∧ tuplesF d.obs = tuplesF e.obs := by
  constructor
  · intro h
    have h' : d.name.toList ++ ([':', '\n', 'C', '='] ++ '(' :: (showF d.cond ++ ')' :: (['\n', 'L', '=', '('] ++ (showF d.obs ++ [')'])))) =
        e.name.toList ++ ([':', '\n', 'C', '='] ++ '(' :: (showF e.cond ++ ')' :: (['\n', 'L', '=', '('] ++ (showF e.obs ++ [')'])))) := by
      simpa [sensorShown] using h
    obtain ⟨e1, e2⟩ := word_then hd.1 he.1 (by decide) (stops_open _) (stops_open _) h'
    obtain ⟨e3, e4⟩ := sameF hA hd.2.1 he.2.1 (follows_close _) (follows_close _) (List.cons.inj e2).2
    have e5 := List.append_cancel_left (List.cons.inj e4).2
    exact ⟨String.toList_injective e1, e3, (sameF hA hd.2.2 he.2.2 (follows_close _) (follows_close _) e5).1⟩
  · rintro ⟨h1, h2, h3⟩
    rw [sensorShown, sensorShown, h1, ← showF_tuples d.cond, h2, showF_tuples, ← showF_tuples d.obs, h3, showF_tuples]

/-- C118, differential constraints: `str()` is the same exactly when the name, the condition, the term that varies (always an application of a function
in a constraint that the constructor accepts) and the right-hand side are: the parameters are not printed. -/
theorem C118_ode_partial (hA : LeavesApart A) {d e : DiffConstraint} (hd : ShownName d.name.toList ∧ OverF A d.cond ∧ OverT A d.variate ∧ OverT A d.ode)
    (he : ShownName e.name.toList ∧ OverF A e.cond ∧ OverT A e.variate ∧ OverT A e.ode) (ok : mkDiffConstraint d = .ok d) (ok' : mkDiffConstraint e = .ok e) :
    odeShown d = odeShown e ↔ d.name = e.name ∧ tuplesF d.cond = tuplesF e.cond ∧ tuplesT d.variate = tuplesT e.variate ∧ tuplesT d.ode = tuplesT e.ode := by
  have app : ∀ {x : DiffConstraint}, mkDiffConstraint x = .ok x → ∃ f ts, x.variate = .app f ts := by
    intro x hx
    unfold mkDiffConstraint at hx
    split at hx
    · exact ⟨_, _, ‹_›⟩
    · cases hx
  constructor
  · intro h
    have h' : d.name.toList ++ ([':', '\n', 'c', 'o', 'n', 'd', ':'] ++ ' ' :: '(' :: (showF d.cond ++ ')' :: (['\n', 'v', 'a', 'r', 'i', 'a', 't', 'e', ':', ' '] ++ (showT d.variate ++ (['\n', 'o', 'd', 'e', ':', ' '] ++ showT d.ode))))) =
        e.name.toList ++ ([':', '\n', 'c', 'o', 'n', 'd', ':'] ++ ' ' :: '(' :: (showF e.cond ++ ')' :: (['\n', 'v', 'a', 'r', 'i', 'a', 't', 'e', ':', ' '] ++ (showT e.variate ++ (['\n', 'o', 'd', 'e', ':', ' '] ++ showT e.ode))))) := by
      simpa [odeShown] using h
    obtain ⟨e1, e2⟩ := word_then hd.1 he.1 (by decide) (follows_blank _).stops (follows_blank _).stops h'
    obtain ⟨e3, e4⟩ := sameF hA hd.2.1 he.2.1 (follows_close _) (follows_close _) (List.cons.inj (List.cons.inj e2).2).2
    have e5 := List.append_cancel_left (List.cons.inj e4).2
    obtain ⟨f, ts, hf⟩ := app ok
    obtain ⟨g, us, hg⟩ := app ok'
    have hv := hd.2.2.1
    have hw := he.2.2.1
    rw [hf] at e5 hv
    rw [hg] at e5 hw
    obtain ⟨e6, e7⟩ := app_text_read hA hv hw e5
    exact ⟨String.toList_injective e1, e3, by rw [hf, hg, e6], (C116_term_partial hA hd.2.2.2 he.2.2.2).1 (List.append_cancel_left e7)⟩
  · rintro ⟨h1, h2, h3, h4⟩
    rw [odeShown, odeShown, h1, ← showF_tuples d.cond, h2, showF_tuples, ← showT_tuples d.variate, h3, showT_tuples, ← showT_tuples d.ode, h4, showT_tuples]

/-- Finding: the parameters of sensing actions, reactions and differential constraints are not printed, so that one with a parameter is printed like one
with a constant of the same name. -/
theorem C118_params_refuted (s : Sensor) (r : Reaction) (d : DiffConstraint) (ps : List Var) :
    sensorShown { s with params := ps } = sensorShown s ∧ reactionShown { r with params := ps } = reactionShown r ∧ odeShown { d with params := ps } = odeShown d :=
  ⟨rfl, rfl, rfl⟩

/-- Finding: the sorts of the parameters are not part of the identifier (unlike that of actions, C116). -/
theorem C118_sort_refuted (n : String) : regIdent n [⟨"?x", "block"⟩] = regIdent n [⟨"?x", "place"⟩] := rfl

theorem callDumps_error {α : Type} (x : DumpNode) (xs : List DumpNode) : (callDumps (x :: xs) : Except Err (List α)) = .error .attribute := by
  cases x <;> rfl

/-- Finding: `dump()` always raises AttributeError, for every derived predicate, reaction, differential constraint and sensing action. -/
theorem C118_dump_refuted {α : Type} (d : Derived) (r : Reaction) (o : DiffConstraint) (s : Sensor) :
    (derivedDump d : Except Err (List α)) = .error .attribute ∧ (reactionDump r : Except Err (List α)) = .error .attribute ∧
    (odeDump o : Except Err (List α)) = .error .attribute ∧ (sensorDump s : Except Err (List α)) = .error .attribute := by
  have key : ∀ (ps : List Var) x xs, (callDumps (ps.map .var ++ x :: xs) : Except Err (List α)) = .error .attribute := by
    intro ps x xs
    cases ps <;> exact callDumps_error _ _
  exact ⟨key _ _ _, key _ _ _, key _ _ _, key _ _ _⟩

/-! ### Non-vacuity -/

/-- `derived above ?x ?y: on(?x,a) and …` -/
def exDerived (k : Kind) : Derived := ⟨"above", [⟨"?x", "block"⟩, ⟨"?y", "block"⟩], exShown k⟩

example : ShownName (exDerived .tuple).name.toList ∧ ParamsOver exStock (exDerived .tuple).params ∧ OverF exStock (exDerived .tuple).formula :=
  ⟨by unfold ShownName; decide, by simp [ParamsOver, exDerived, exStock], exShown_over _⟩

example : derivedShown (exDerived .tuple) = "derived above ?x ?y:\nformula=((on(?x,a) and (not exists ?y : (=(f(?y),3)))))".toList := by decide +kernel

/-- A differential constraint that the constructor accepts. -/
def exOde : DiffConstraint := ⟨"fall", [⟨"?x", "block"⟩], .top, .app "f" [.var ⟨"?x", "block"⟩], .const (.int 3) "Integer"⟩

example : mkDiffConstraint exOde = .ok exOde ∧ ShownName exOde.name.toList ∧ OverF exStock exOde.cond ∧ OverT exStock exOde.variate ∧ OverT exStock exOde.ode ∧
    odeShown exOde = "reaction fall:\ncond: (T)\nvariate: f(?x)\node: 3".toList :=
  ⟨rfl, by unfold ShownName; decide, .top, .app (by unfold ShownName; decide) (by decide) (by
    intro t ht; rw [List.mem_singleton.1 ht]; exact .leaf (.inl rfl)), .leaf (.inr (.inr (.inr rfl))), by decide +kernel⟩

/-- A sensing action and a reaction. -/
example : sensorShown ⟨"look", [⟨"?x", "block"⟩], .top, .atom (.user "on") [.var ⟨"?x", "block"⟩, .const (.str "a") "block"]⟩ = "action look:\nC=(T)\nL=(on(?x,a))".toList ∧
    reactionShown ⟨"drop", [], .bot, .del .top (.user "on") [.const (.str "a") "block"]⟩ = "reaction drop:\ncond: (F)\neff: ((T -> DEL(on(a))))".toList := by decide +kernel

end Tarski

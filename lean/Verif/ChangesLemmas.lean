import Verif.EffectsLemmas
import Verif.EffectsSpec
namespace Tarski

/-! ### Reading depends only on the symbols read -/

mutual
theorem evTerm_same {L m r σ} : ∀ (mode : EvMode) (t : Term), (∀ x, UsesT x t → SameOn L m r x) →
    evTerm L m σ mode t = evTerm L r σ mode t
  | mode, .var v, _ => by simp [evTerm]
  | mode, .const n s, _ => by simp [evTerm]
  | mode, .app f ts, h => by
    have h1 : ∀ md, evTerms L m σ md ts = evTerms L r σ md ts :=
      fun md => evTerms_same md ts (fun x hx => h x (by simp [UsesT, hx]))
    have h2 : ∀ pt, m.value L f pt = r.value L f pt := h (.fn f) (by simp [UsesT])
    simp only [evTerm, h1, valueOrUndefined, h2]
  | mode, .ite c t e, h => by
    have h1 := evFormula_same (σ := σ) c (fun x hx => h x (by simp [UsesT, hx]))
    have h2 : ∀ md, evTerm L m σ md t = evTerm L r σ md t := fun md => evTerm_same md t (fun x hx => h x (by simp [UsesT, hx]))
    have h3 : ∀ md, evTerm L m σ md e = evTerm L r σ md e := fun md => evTerm_same md e (fun x hx => h x (by simp [UsesT, hx]))
    simp only [evTerm, h1, h2, h3]
theorem evTerms_same {L m r σ} : ∀ (mode : EvMode) (ts : List Term), (∀ x, UsesTs x ts → SameOn L m r x) →
    evTerms L m σ mode ts = evTerms L r σ mode ts
  | mode, [], _ => by simp [evTerms]
  | mode, t :: ts, h => by
    simp only [evTerms, evTerm_same (σ := σ) mode t (fun x hx => h x (by simp [UsesTs, hx])),
      evTerms_same (σ := σ) mode ts (fun x hx => h x (by simp [UsesTs, hx]))]
theorem evFormula_same {L m r σ} : ∀ (f : Formula), (∀ x, UsesF x f → SameOn L m r x) →
    evFormula L m σ f = evFormula L r σ f
  | .top, _ => by simp [evFormula]
  | .bot, _ => by simp [evFormula]
  | .atom (.user p) ts, h => by
    have h2 : ∀ pt, m.holds L p pt = r.holds L p pt := h (.pred p) (by simp [UsesF])
    simp only [evFormula, evTerms_same (σ := σ) .eval ts (fun x hx => h x (by simp [UsesF, hx])), h2]
  | .atom (.cmp c) ts, h => by
    simp only [evFormula, evTerms_same (σ := σ) .eval ts (fun x hx => h x (by simp [UsesF, hx]))]
  | .comp _ .and fs, h => by simp only [evFormula, evAll_same (σ := σ) fs (fun x hx => h x (by simp [UsesF, hx]))]
  | .comp _ .or fs, h => by simp only [evFormula, evAny_same (σ := σ) fs (fun x hx => h x (by simp [UsesF, hx]))]
  | .comp _ .not [], _ => by simp [evFormula]
  | .comp _ .not (f :: _), h => by
    simp only [evFormula, evFormula_same (σ := σ) f (fun x hx => h x (by simp [UsesF, UsesFs, hx]))]
  | .quant _ _ _, _ => by simp [evFormula]
theorem evAll_same {L m r σ} : ∀ (fs : List Formula), (∀ x, UsesFs x fs → SameOn L m r x) →
    evAll L m σ fs = evAll L r σ fs
  | [], _ => by simp [evAll]
  | f :: fs, h => by
    simp only [evAll, evFormula_same (σ := σ) f (fun x hx => h x (by simp [UsesFs, hx])),
      evAll_same (σ := σ) fs (fun x hx => h x (by simp [UsesFs, hx]))]
theorem evAny_same {L m r σ} : ∀ (fs : List Formula), (∀ x, UsesFs x fs → SameOn L m r x) →
    evAny L m σ fs = evAny L r σ fs
  | [], _ => by simp [evAny]
  | f :: fs, h => by
    simp only [evAny, evFormula_same (σ := σ) f (fun x hx => h x (by simp [UsesFs, hx])),
      evAny_same (σ := σ) fs (fun x hx => h x (by simp [UsesFs, hx]))]
end

mutual
theorem uses_subT {s : Subst} (hc : ValsConst s) (x : Sym) : ∀ t, UsesT x (subT s t) → UsesT x t
  | .var v, h => by
    rcases visit_cases hc (.var v) with ⟨he, _⟩ | ⟨⟨n, so, he⟩, _⟩ <;> simp [subT, he, UsesT] at h
  | .const n so, h => by
    rcases visit_cases hc (.const n so) with ⟨he, _⟩ | ⟨⟨n, so, he⟩, _⟩ <;> simp [subT, he, UsesT] at h
  | .app f ts, h => by
    rcases visit_cases hc (.app f (subTs s ts)) with ⟨he, _⟩ | ⟨⟨n, so, he⟩, _⟩ <;> simp only [subT, he, UsesT] at h
    simp only [UsesT]
    exact h.imp id (uses_subTs hc x ts)
  | .ite c t e, h => by
    rcases visit_cases hc (.ite (subF s c) (subT s t) (subT s e)) with ⟨he, _⟩ | ⟨⟨n, so, he⟩, _⟩ <;> simp only [subT, he, UsesT] at h
    simp only [UsesT]
    exact h.imp (uses_subF hc x c) (Or.imp (uses_subT hc x t) (uses_subT hc x e))
theorem uses_subTs {s : Subst} (hc : ValsConst s) (x : Sym) : ∀ ts, UsesTs x (subTs s ts) → UsesTs x ts
  | [], h => h
  | t :: ts, h => by
    simp only [subTs, UsesTs] at h ⊢
    exact h.imp (uses_subT hc x t) (uses_subTs hc x ts)
theorem uses_subF {s : Subst} (hc : ValsConst s) (x : Sym) : ∀ f, UsesF x (subF s f) → UsesF x f
  | .top, h => h
  | .bot, h => h
  | .atom (.user p) ts, h => by
    simp only [subF, UsesF] at h ⊢
    exact h.imp id (uses_subTs hc x ts)
  | .atom (.cmp c) ts, h => by
    simp only [subF, UsesF] at h ⊢
    exact uses_subTs hc x ts h
  | .comp _ _ fs, h => by
    simp only [subF, UsesF] at h ⊢
    exact uses_subFs hc x fs h
  | .quant _ _ f, h => by
    simp only [subF, UsesF] at h ⊢
    exact uses_subF hc x f h
theorem uses_subFs {s : Subst} (hc : ValsConst s) (x : Sym) : ∀ fs, UsesFs x (subFs s fs) → UsesFs x fs
  | [], h => h
  | f :: fs, h => by
    simp only [subFs, UsesFs] at h ⊢
    exact h.imp (uses_subF hc x f) (uses_subFs hc x fs)
end

mutual
theorem reads_subE {s : Subst} (hc : ValsConst s) (x : Sym) : ∀ e : Effect, (subE s e).Reads x → e.Reads x
  | .add c p ts, h => uses_subF hc x c h
  | .del c p ts, h => uses_subF hc x c h
  | .lit c l, h => uses_subF hc x c h
  | .assign c f ts r, h => by
    simp only [subE, Effect.Reads] at h ⊢
    exact h.imp (uses_subF hc x c) (uses_subT hc x r)
  | .univ c vs es, h => by
    simp only [subE, Effect.Reads] at h ⊢
    exact h.imp (fun h => uses_subF hc x c (uses_subF hc x _ h)) (reads_subEs hc x es)
theorem reads_subEs {s : Subst} (hc : ValsConst s) (x : Sym) : ∀ es : List Effect, ReadsAny x (subEs s es) → ReadsAny x es
  | [], h => h
  | e :: es, h => by
    simp only [subEs, ReadsAny] at h ⊢
    exact h.imp (reads_subE hc x e) (reads_subEs hc x es)
end

mutual
theorem writes_subE (s : Subst) (x : Sym) : ∀ e : Effect, (subE s e).Writes x ↔ e.Writes x
  | .add c p ts => by simp [subE, Effect.Writes]
  | .del c p ts => by simp [subE, Effect.Writes]
  | .lit c l => by simp [subE, Effect.Writes]
  | .assign c f ts r => by simp [subE, Effect.Writes]
  | .univ c vs es => by simp [subE, Effect.Writes, writes_subEs s x es]
theorem writes_subEs (s : Subst) (x : Sym) : ∀ es : List Effect, WritesAny x (subEs s es) ↔ WritesAny x es
  | [] => by simp [subEs]
  | e :: es => by simp [subEs, WritesAny, writes_subE s x e, writes_subEs s x es]
end

/-! ### The list of changes an effect asks for -/

def Change.apply (L : MLang) (m : MState) : Change → MState
  | .add p pt => { m with preds := dinsert m.preds (L.psig p) (ptAdd ((dlookup m.preds (L.psig p)).getD []) pt) }
  | .del p pt => match dlookup m.preds (L.psig p) with
    | none => m
    | some ext => { m with preds := dinsert m.preds (L.psig p) (ptDiscard ext pt) }
  | .set f pt c =>
    let d := dinsert ((dlookup m.fns (L.fsig f)).getD []) pt c
    { m with fns := dinsert m.fns (L.fsig f) d }

def applyChanges (L : MLang) (m : MState) (cs : List Change) : MState := cs.foldl (Change.apply L) m

def collectAll {α} (f : α → Except Err (List Change)) : List α → Except Err (List Change)
  | [] => .ok []
  | a :: as => match f a with
    | .error e => .error e
    | .ok cs => match collectAll f as with
      | .error e => .error e
      | .ok cs' => .ok (cs ++ cs')

theorem collectAll_congr {α} {f g : α → Except Err (List Change)} {as : List α} (h : ∀ a ∈ as, f a = g a) :
    collectAll f as = collectAll g as := by
  induction as with
  | nil => rfl
  | cons a as ih => simp only [collectAll, h a (by simp), ih (fun b hb => h b (by simp [hb]))]

theorem collectAll_mem {α} {f : α → Except Err (List Change)} {as : List α} {cs} (h : collectAll f as = .ok cs) (ch : Change) :
    ch ∈ cs ↔ ∃ a ∈ as, ∃ cs', f a = .ok cs' ∧ ch ∈ cs' := by
  induction as generalizing cs with
  | nil => simp only [collectAll, Except.ok.injEq] at h; subst h; simp
  | cons a as ih =>
    simp only [collectAll] at h
    cases h1 : f a with
    | error e => simp [h1] at h
    | ok c1 =>
      cases h2 : collectAll f as with
      | error e => simp [h1, h2] at h
      | ok c2 =>
        simp only [h1, h2, Except.ok.injEq] at h
        subst h
        rw [List.mem_append, ih h2]
        constructor
        · rintro (h | ⟨a', ha, h⟩)
          · exact ⟨a, by simp, c1, h1, h⟩
          · exact ⟨a', by simp [ha], h⟩
        · rintro ⟨a', ha, cs', hf, h⟩
          rcases List.mem_cons.1 ha with rfl | ha
          · rw [h1] at hf; injection hf with hf; subst hf; exact .inl h
          · exact .inr ⟨a', ha, cs', hf, h⟩

theorem collectAll_ok {α} {f : α → Except Err (List Change)} {as : List α} :
    (∃ cs, collectAll f as = .ok cs) ↔ ∀ a ∈ as, ∃ cs, f a = .ok cs := by
  induction as with
  | nil => simp [collectAll]
  | cons a as ih =>
    simp only [collectAll, List.forall_mem_cons, ← ih]
    cases h1 : f a with
    | error e => simp
    | ok c1 => cases h2 : collectAll f as <;> simp

def changesFuel (L : MLang) (dom : Domains) (r : MState) : Nat → Effect → Except Err (List Change)
  | n, e =>
    match evFormula L r noSigma e.cond with
    | .error er => .error er
    | .ok false => .ok []
    | .ok true =>
      match e with
      | .add _ (.cmp _) _ => .error .semantic
      | .add _ (.user p) ts => match checkAssignment L (L.psorts p) (ts.map termArg) with
        | .error er => .error er
        | .ok pt => .ok [.add p pt]
      | .del _ (.cmp _) _ => .ok []
      | .del _ (.user p) ts => match wrapTuple (ts.map termArg) with
        | .error er => .error er
        | .ok none => .ok []
        | .ok (some pt) => .ok [.del p pt]
      | .lit _ _ => .error .runtime
      | .assign _ f ts rhs =>
        match evTerm L r noSigma .eval rhs with
        | .error er => .error er
        | .ok c =>
          if builtinFunctionNames.contains f then .error .semantic
          else if (ts.map termArg).all Arg.isConst = false then .error .semantic
          else match checkAssignment L (L.fsorts f) (ts.map termArg ++ [.const c]) with
            | .error er => .error er
            | .ok cs => .ok [.set f cs.dropLast (cs.getLastD default)]
      | .univ _ vs es =>
        match enumSubsts dom vs with
        | .error er => .error er
        | .ok ss =>
          match n with
          | 0 => .error .runtime
          | n + 1 => collectAll (fun s => collectAll (fun e => changesFuel L dom r n (subE s e)) es) ss

theorem applyChanges_append (L : MLang) (m : MState) (cs ds : List Change) :
    applyChanges L m (cs ++ ds) = applyChanges L (applyChanges L m cs) ds := by
  simp [applyChanges, List.foldl_append]

/-! ### Effect of changes on queries -/

theorem holds_change (L : MLang) (m : MState) (ch : Change) (p : String) (pt : List Const) :
    (ch.apply L m).holds L p pt = true ↔ ch = .add p pt ∨ (m.holds L p pt = true ∧ ch ≠ .del p pt) := by
  cases ch with
  | add q qt =>
    rw [holds_iff, holds_iff]
    simp only [Change.apply, dlookup_dinsert, psig_inj]
    by_cases hq : q = p
    · subst hq
      simp only [if_true, Option.some.injEq, exists_eq_left', mem_ptAdd, Change.add.injEq, true_and]
      cases hd : dlookup m.preds (L.psig q) with
      | none => simp [eq_comm]
      | some ext => simp [eq_comm]
    · simp [hq]
  | del q qt =>
    rw [holds_iff, holds_iff]
    simp only [Change.apply]
    cases hd : dlookup m.preds (L.psig q) with
    | none =>
      simp only []
      by_cases hq : q = p
      · subst hq; simp [hd]
      · simp [hq]
    | some ext =>
      simp only [dlookup_dinsert, psig_inj]
      by_cases hq : q = p
      · subst hq; simp [hd, mem_ptDiscard, eq_comm]
      · simp [hq]
  | set f ft c =>
    rw [holds_iff, holds_iff]
    simp [Change.apply]

theorem value_change (L : MLang) (m : MState) (ch : Change) (f : String) (pt : List Const) (c : Const) :
    (ch.apply L m).value L f pt = .ok c ↔
      ch = .set f pt c ∨ (m.value L f pt = .ok c ∧ ∀ d, ch ≠ .set f pt d) := by
  rw [value_iff, value_iff]
  cases ch with
  | add q qt => simp [Change.apply]
  | del q qt =>
    simp only [Change.apply]
    cases hd : dlookup m.preds (L.psig q) with
    | none => simp
    | some ext => simp
  | set g gt d =>
    simp only [Change.apply, dlookup_dinsert, fsig_inj]
    by_cases hg : g = f
    · subst hg
      simp only [if_true, Option.some.injEq, exists_eq_left', dlookup_dinsert, Change.set.injEq, true_and]
      by_cases hp : gt = pt
      · subst hp
        simp
      · simp only [hp, if_false, false_and, false_or]
        cases hd : dlookup m.fns (L.fsig g) with
        | none => simp [dlookup]
        | some d' => simp [hp]
    · simp [hg]

theorem holds_changes (L : MLang) (cs : List Change) (m : MState) (p : String) (pt : List Const) :
    (applyChanges L m cs).holds L p pt = true ↔
      (∃ pre post, cs = pre ++ .add p pt :: post ∧ .del p pt ∉ post) ∨ (m.holds L p pt = true ∧ .del p pt ∉ cs) := by
  have := last_write (Change.apply L) (fun m => m.holds L p pt = true) (fun _ => True) (fun ch => ch = .add p pt)
    (fun ch => ch = .del p pt) (fun _ => True) (fun _ _ _ _ => trivial)
    (fun m ch _ _ => holds_change L m ch p pt) cs m trivial (fun _ _ => trivial)
  rw [applyChanges, this]
  constructor
  · rintro (⟨pre, o, post, h1, rfl, h2⟩ | ⟨h1, h2⟩)
    · exact .inl ⟨pre, post, h1, fun h => h2 _ h rfl⟩
    · exact .inr ⟨h1, fun h => h2 _ h rfl⟩
  · rintro (⟨pre, post, h1, h2⟩ | ⟨h1, h2⟩)
    · exact .inl ⟨pre, _, post, h1, rfl, fun x hx he => h2 (he ▸ hx)⟩
    · exact .inr ⟨h1, fun x hx he => h2 (he ▸ hx)⟩

theorem value_changes (L : MLang) (cs : List Change) (m : MState) (f : String) (pt : List Const) (c : Const) :
    (applyChanges L m cs).value L f pt = .ok c ↔
      (∃ pre post, cs = pre ++ .set f pt c :: post ∧ ∀ d, .set f pt d ∉ post) ∨
      (m.value L f pt = .ok c ∧ ∀ d, .set f pt d ∉ cs) := by
  have := last_write (Change.apply L) (fun m => m.value L f pt = .ok c) (fun _ => True) (fun ch => ch = .set f pt c)
    (fun ch => ∃ d, ch = .set f pt d) (fun _ => True) (fun _ _ _ _ => trivial)
    (fun m ch _ _ => by simpa using value_change L m ch f pt c) cs m trivial (fun _ _ => trivial)
  rw [applyChanges, this]
  constructor
  · rintro (⟨pre, o, post, h1, rfl, h2⟩ | ⟨h1, h2⟩)
    · exact .inl ⟨pre, post, h1, fun d h => h2 _ h ⟨d, rfl⟩⟩
    · exact .inr ⟨h1, fun d h => h2 _ h ⟨d, rfl⟩⟩
  · rintro (⟨pre, post, h1, h2⟩ | ⟨h1, h2⟩)
    · exact .inl ⟨pre, _, post, h1, rfl, fun x hx ⟨d, he⟩ => h2 d (he ▸ hx)⟩
    · exact .inr ⟨h1, fun x hx ⟨d, he⟩ => h2 d (he ▸ hx)⟩


def Change.sym : Change → Sym
  | .add p _ => .pred p
  | .del p _ => .pred p
  | .set f _ _ => .fn f

theorem value_keyError (L : MLang) (m : MState) (f : String) (pt : List Const) :
    (∃ c, m.value L f pt = .ok c) ∨ m.value L f pt = .error .keyError := by
  simp only [MState.value]
  cases dlookup m.fns (L.fsig f) with
  | none => simp
  | some d => cases h : dlookup d pt <;> simp [h]

theorem value_ext {L : MLang} {m r : MState} {f pt} (h : ∀ c, m.value L f pt = .ok c ↔ r.value L f pt = .ok c) :
    m.value L f pt = r.value L f pt := by
  rcases value_keyError L m f pt with ⟨c, hc⟩ | h1
  · rw [hc, (h c).1 hc]
  · rcases value_keyError L r f pt with ⟨c, hc⟩ | h2
    · rw [hc, (h c).2 hc]
    · rw [h1, h2]

theorem sameOn_changes {L : MLang} {m : MState} {cs : List Change} {x : Sym} (h : ∀ ch ∈ cs, ch.sym ≠ x) :
    SameOn L (applyChanges L m cs) m x := by
  cases x with
  | pred p =>
    intro pt
    rw [Bool.eq_iff_iff, holds_changes]
    constructor
    · rintro (⟨pre, post, rfl, _⟩ | h')
      · exact absurd rfl (h (.add p pt) (by simp))
      · exact h'.1
    · exact fun h' => .inr ⟨h', fun hm => h _ hm rfl⟩
  | fn f =>
    intro pt
    refine value_ext (fun c => ?_)
    rw [value_changes]
    constructor
    · rintro (⟨pre, post, rfl, _⟩ | h')
      · exact absurd rfl (h (.set f pt c) (by simp))
      · exact h'.1
    · exact fun h' => .inr ⟨h', fun d hm => h _ hm rfl⟩

theorem SameOn.trans {L : MLang} {a b c : MState} {x} (h1 : SameOn L a b x) (h2 : SameOn L b c x) : SameOn L a c x := by
  cases x <;> intro pt <;> exact (h1 pt).trans (h2 pt)
theorem SameOn.symm {L : MLang} {a b : MState} {x} (h1 : SameOn L a b x) : SameOn L b a x := by
  cases x <;> intro pt <;> exact (h1 pt).symm
theorem SameOn.refl (L : MLang) (a : MState) (x) : SameOn L a a x := by
  cases x <;> intro pt <;> rfl

/-- Result of applying changes, exceptions propagate. -/
def liftChanges (L : MLang) (m : MState) : Except Err (List Change) → Except Err MState
  | .error e => .error e
  | .ok cs => .ok (applyChanges L m cs)

theorem seqApply_changes {α} {L : MLang} {f : MState → α → Except Err MState} {g : α → Except Err (List Change)}
    (Inv : MState → Prop) {as : List α}
    (h1 : ∀ a ∈ as, ∀ m, Inv m → f m a = liftChanges L m (g a))
    (h2 : ∀ a ∈ as, ∀ m cs, Inv m → g a = .ok cs → Inv (applyChanges L m cs)) :
    ∀ m, Inv m → seqApply f m as = liftChanges L m (collectAll g as) := by
  induction as with
  | nil => intro m _; rfl
  | cons a as ih =>
    intro m hm
    simp only [seqApply, collectAll, h1 a (by simp) m hm]
    cases hg : g a with
    | error e => rfl
    | ok cs =>
      simp only [liftChanges]
      rw [ih (fun b hb => h1 b (by simp [hb])) (fun b hb => h2 b (by simp [hb])) _ (h2 a (by simp) m cs hm hg)]
      cases collectAll g as with
      | error e => rfl
      | ok ds => simp [liftChanges, applyChanges_append]

theorem changesFuel_writes (L : MLang) (dom : Domains) (r : MState) (n : Nat) :
    ∀ e cs, changesFuel L dom r n e = .ok cs → ∀ ch ∈ cs, e.Writes ch.sym := by
  induction n with
  | zero =>
    intro e cs h
    unfold changesFuel at h
    cases hc : evFormula L r noSigma e.cond with
    | error er => simp [hc] at h
    | ok b =>
      cases b with
      | false => simp [hc] at h; subst h; simp
      | true =>
        simp only [hc] at h
        cases e with
        | add c p ts =>
          cases p with
          | cmp _ => simp at h
          | user p =>
            simp only [] at h
            split at h <;> simp at h
            subst h; simp [Change.sym, Effect.Writes]
        | del c p ts =>
          cases p with
          | cmp _ => simp at h; subst h; simp
          | user p =>
            simp only [] at h
            split at h <;> simp at h <;> subst h <;> simp [Change.sym, Effect.Writes]
        | lit c l => simp at h
        | assign c f ts rhs =>
          simp only [] at h
          split at h
          · simp at h
          · split at h
            · simp at h
            · split at h
              · simp at h
              · split at h <;> simp at h
                subst h; simp [Change.sym, Effect.Writes]
        | univ c vs es =>
          simp only [] at h
          split at h <;> simp at h
  | succ n ih =>
    intro e cs h
    unfold changesFuel at h
    cases hc : evFormula L r noSigma e.cond with
    | error er => simp [hc] at h
    | ok b =>
      cases b with
      | false => simp [hc] at h; subst h; simp
      | true =>
        simp only [hc] at h
        cases e with
        | add c p ts =>
          cases p with
          | cmp _ => simp at h
          | user p =>
            simp only [] at h
            split at h <;> simp at h
            subst h; simp [Change.sym, Effect.Writes]
        | del c p ts =>
          cases p with
          | cmp _ => simp at h; subst h; simp
          | user p =>
            simp only [] at h
            split at h <;> simp at h <;> subst h <;> simp [Change.sym, Effect.Writes]
        | lit c l => simp at h
        | assign c f ts rhs =>
          simp only [] at h
          split at h
          · simp at h
          · split at h
            · simp at h
            · split at h
              · simp at h
              · split at h <;> simp at h
                subst h; simp [Change.sym, Effect.Writes]
        | univ c vs es =>
          simp only [] at h
          split at h
          · simp at h
          · rename_i ss hss
            intro ch hch
            obtain ⟨s, _, cs', hs, hch⟩ := (collectAll_mem h ch).1 hch
            obtain ⟨e, he, cs'', hs', hch⟩ := (collectAll_mem hs ch).1 hch
            have := ih _ _ hs' ch hch
            rw [writes_subE] at this
            simp only [Effect.Writes, writesAny_iff]
            exact ⟨e, he, this⟩

/-- Effects behave as the list of changes computed in a state `r` that agrees on all symbols read. -/
theorem applyFuel_changes {L : MLang} {dom : Domains} (hd : ConstDoms dom) (r : MState) (n : Nat) :
    ∀ m e, (∀ x, e.Reads x → SameOn L m r x) → SelfContained e →
      applyFuel L dom n m e = liftChanges L m (changesFuel L dom r n e) := by
  have base : ∀ (n : Nat) m e, (∀ c vs es, e ≠ .univ c vs es) → (∀ x, e.Reads x → SameOn L m r x) →
      applyFuel L dom n m e = liftChanges L m (changesFuel L dom r n e) := by
    intro n m e hu hr
    have hc : evFormula L m noSigma e.cond = evFormula L r noSigma e.cond := by
      apply evFormula_same
      intro x hx
      apply hr
      cases e <;> simp_all [Effect.cond, Effect.Reads]
    unfold applyFuel changesFuel
    rw [hc]
    cases evFormula L r noSigma e.cond with
    | error er => rfl
    | ok b =>
      cases b with
      | false => rfl
      | true =>
        cases e with
        | univ c vs es => exact absurd rfl (hu c vs es)
        | lit c l => rfl
        | add c p ts =>
          cases p with
          | cmp _ => rfl
          | user p =>
            simp only [MState.add]
            cases checkAssignment L (L.psorts p) (ts.map termArg) <;> rfl
        | del c p ts =>
          cases p with
          | cmp _ => rfl
          | user p =>
            simp only [MState.discardP, MState.discard]
            obtain ⟨w, hw⟩ := wrapTuple_terms ts
            rw [hw]
            cases hl : dlookup m.preds (L.psig p) with
            | none => cases w <;> simp [liftChanges, applyChanges, Change.apply, raising, hl]
            | some ext => cases w <;> simp [liftChanges, applyChanges, Change.apply, raising, hl]
        | assign c f ts rhs =>
          have ht : evTerm L m noSigma .eval rhs = evTerm L r noSigma .eval rhs :=
            evTerm_same _ _ (fun x hx => hr x (by simp [Effect.Reads, hx]))
          simp only [ht]
          cases evTerm L r noSigma .eval rhs with
          | error er => rfl
          | ok v =>
            simp only [MState.set]
            cases builtinFunctionNames.contains f with
            | true => rfl
            | false =>
              cases ha : (ts.map termArg).all Arg.isConst with
              | false => simp [raising, liftChanges]
              | true =>
                simp only [Bool.false_eq_true, if_false, Bool.true_eq_false]
                have hne : (Arg.const v = Arg.lit .pyNone) = False := by simp
                simp only [hne, if_false]
                cases checkAssignment L (L.fsorts f) (ts.map termArg ++ [.const v]) with
                | error er => rfl
                | ok cs => rfl
  induction n with
  | zero =>
    intro m e hr hs
    by_cases hu : ∃ c vs es, e = .univ c vs es
    · obtain ⟨c, vs, es, rfl⟩ := hu
      have hc : evFormula L m noSigma c = evFormula L r noSigma c :=
        evFormula_same _ (fun x hx => hr x (by simp [Effect.Reads, hx]))
      unfold applyFuel changesFuel
      simp only [Effect.cond, hc]
      cases evFormula L r noSigma c with
      | error er => rfl
      | ok b =>
        cases b with
        | false => rfl
        | true => simp only []; cases enumSubsts dom vs <;> rfl
    · exact base 0 m e (fun c vs es h => hu ⟨c, vs, es, h⟩) hr
  | succ n ih =>
    intro m e hr hs
    by_cases hu : ∃ c vs es, e = .univ c vs es
    · obtain ⟨c, vs, es, rfl⟩ := hu
      have hc : evFormula L m noSigma c = evFormula L r noSigma c :=
        evFormula_same _ (fun x hx => hr x (by simp [Effect.Reads, hx]))
      unfold applyFuel changesFuel
      simp only [Effect.cond, hc]
      cases evFormula L r noSigma c with
      | error er => rfl
      | ok b =>
        cases b with
        | false => rfl
        | true =>
          simp only []
          cases hss : enumSubsts dom vs with
          | error er => rfl
          | ok ss =>
            simp only []
            have hflow : ∀ x, WritesAny x es → ¬ ReadsAny x es := by
              intro x hw hrd
              exact hs x (by simpa [Effect.Writes] using hw) (by simp [Effect.Reads, hrd])
            let Inv : MState → Prop := fun m => ∀ x, ReadsAny x es → SameOn L m r x
            have inner : ∀ s ∈ ss, ∀ m, Inv m → seqApply (fun m e => applyFuel L dom n m (subE s e)) m es =
                liftChanges L m (collectAll (fun e => changesFuel L dom r n (subE s e)) es) := by
              intro s hsm
              have hvc := enumSubsts_vals hd hss s hsm
              refine seqApply_changes Inv ?_ ?_
              · intro e he m hm
                refine ih m _ (fun x hx => hm x (readsAny_iff.2 ⟨e, he, reads_subE hvc x e hx⟩)) ?_
                cases hse : subE s e with
                | univ c' vs' es' =>
                  intro x hw hrd
                  rw [← hse] at hw hrd
                  exact hflow x (writesAny_iff.2 ⟨e, he, (writes_subE s x e).1 hw⟩)
                    (readsAny_iff.2 ⟨e, he, reads_subE hvc x e hrd⟩)
                | _ => trivial
              · intro e he m cs hm hcs x hx
                refine (sameOn_changes (fun ch hch heq => ?_)).trans (hm x hx)
                have hw := changesFuel_writes L dom r n _ cs hcs ch hch
                rw [writes_subE, heq] at hw
                exact hflow x (writesAny_iff.2 ⟨e, he, hw⟩) hx
            refine seqApply_changes Inv inner ?_ m (fun x hx => hr x (by simp [Effect.Reads, hx]))
            intro s hsm m cs hm hcs x hx
            refine (sameOn_changes (fun ch hch heq => ?_)).trans (hm x hx)
            obtain ⟨e, he, cs', hcs', hch'⟩ := (collectAll_mem hcs ch).1 hch
            have hw := changesFuel_writes L dom r n _ cs' hcs' ch hch'
            rw [writes_subE, heq] at hw
            exact hflow x (writesAny_iff.2 ⟨e, he, hw⟩) hx
    · exact base (n+1) m e (fun c vs es h => hu ⟨c, vs, es, h⟩) hr

theorem pointDenotes_split {L : MLang} {as : List Arg} {a : Arg} {ss : List String} {cs : List Const}
    (h : PointDenotes L (as ++ [a]) ss cs) : cs = cs.dropLast ++ [cs.getLastD default] := by
  have hl := h.length.2
  have : cs ≠ [] := by intro h0; subst h0; simp at hl
  obtain ⟨ys, y, rfl⟩ := List.eq_nil_or_concat cs |>.resolve_left this
  simp

theorem pointDenotes_last {L : MLang} {as : List Arg} {v : Const} {ss : List String} {cs : List Const}
    (h : PointDenotes L (as ++ [.const v]) ss cs) : cs.getLastD default = v := by
  induction as generalizing ss cs with
  | nil =>
    cases h with
    | cons ha ht => cases ha; cases ht; rfl
  | cons a as ih =>
    cases h with
    | cons ha ht =>
      have := ih ht
      have hl := ht.length.2
      rename_i c cs
      cases cs with
      | nil => simp at hl
      | cons d ds => simpa using this

/-- The changes computed are exactly those the effect asks for. -/
theorem changesFuel_produces {L : MLang} {dom : Domains} (r : MState) (n : Nat) :
    ∀ e cs, edepth e ≤ n → changesFuel L dom r n e = .ok cs → ∀ ch, ch ∈ cs ↔ Produces L dom r e ch := by
  induction n with
  | zero =>
    intro e cs hdep h ch
    exact prod_base 0 e cs (by cases e <;> simp_all [edepth]) h ch
  | succ n ih =>
    intro e cs hdep h ch
    by_cases hu : ∃ c vs es, e = .univ c vs es
    · obtain ⟨c, vs, es, rfl⟩ := hu
      unfold changesFuel at h
      simp only [Effect.cond] at h
      split at h
      · simp at h
      · simp at h; subst h
        refine ⟨by simp, fun hp => ?_⟩
        cases hp with | univ hc => simp_all
      · rename_i hc
        split at h
        · simp at h
        · rename_i ss hss
          simp only [edepth] at hdep
          rw [collectAll_mem h ch]
          constructor
          · rintro ⟨s, hs, cs', hcs', hch⟩
            obtain ⟨e, he, cs'', hcs'', hch⟩ := (collectAll_mem hcs' ch).1 hch
            refine .univ hc hss hs he ((ih _ _ ?_ hcs'' ch).1 hch)
            rw [subE_depth]; have := edepth_le he; omega
          · intro hp
            cases hp with
            | univ hc' hss' hs he hp =>
              rename_i ss' s e
              rw [hss] at hss'; injection hss' with hss'; subst hss'
              obtain ⟨cs', hcs'⟩ := collectAll_ok.1 ⟨cs, h⟩ s hs
              obtain ⟨cs'', hcs''⟩ := collectAll_ok.1 ⟨cs', hcs'⟩ e he
              refine ⟨s, hs, cs', hcs', (collectAll_mem hcs' ch).2 ⟨e, he, cs'', hcs'', (ih _ _ ?_ hcs'' ch).2 hp⟩⟩
              rw [subE_depth]; have := edepth_le he; omega
    · exact prod_base (n+1) e cs (fun c vs es h => hu ⟨c, vs, es, h⟩) h ch
where
  prod_base (n : Nat) (e : Effect) (cs : List Change) (hu : ∀ c vs es, e ≠ .univ c vs es)
      (h : changesFuel L dom r n e = .ok cs) (ch : Change) : ch ∈ cs ↔ Produces L dom r e ch := by
    unfold changesFuel at h
    cases e with
    | univ c vs es => exact absurd rfl (hu c vs es)
    | lit c l =>
      simp only [Effect.cond] at h
      split at h <;> simp at h
      subst h; exact ⟨by simp, fun hp => by cases hp⟩
    | add c p ts =>
      simp only [Effect.cond] at h
      split at h
      · simp at h
      · simp at h; subst h
        refine ⟨by simp, fun hp => ?_⟩
        cases hp; simp_all
      · rename_i hc
        cases p with
        | cmp _ => simp at h
        | user p =>
          simp only [] at h
          split at h
          · simp at h
          · rename_i pt hpt
            simp at h; subst h
            rw [List.mem_singleton]
            constructor
            · rintro rfl; exact .add hc ((checkAssignment_iff ..).1 hpt)
            · intro hp
              cases hp with
              | add _ hp => rw [(checkAssignment_iff ..).2 hp] at hpt; injection hpt with hpt; rw [hpt]
    | del c p ts =>
      simp only [Effect.cond] at h
      split at h
      · simp at h
      · simp at h; subst h
        refine ⟨by simp, fun hp => ?_⟩
        cases hp; simp_all
      · rename_i hc
        cases p with
        | cmp _ => simp at h; subst h; exact ⟨by simp, fun hp => by cases hp⟩
        | user p =>
          simp only [] at h
          split at h
          · simp at h
          · rename_i hw
            simp at h; subst h
            refine ⟨by simp, fun hp => ?_⟩
            cases hp with
            | del _ hp => rw [(wrapTuple_iff ..).2 hp] at hw; simp at hw
          · rename_i pt hpt
            simp at h; subst h
            rw [List.mem_singleton]
            constructor
            · rintro rfl; exact .del hc ((wrapTuple_iff ..).1 hpt)
            · intro hp
              cases hp with
              | del _ hp => rw [(wrapTuple_iff ..).2 hp] at hpt; injection hpt with hpt; injection hpt with hpt; rw [hpt]
    | assign c f ts rhs =>
      simp only [Effect.cond] at h
      split at h
      · simp at h
      · simp at h; subst h
        refine ⟨by simp, fun hp => ?_⟩
        cases hp; simp_all
      · rename_i hc
        split at h
        · simp at h
        · rename_i v hv
          split at h
          · simp at h
          · rename_i hb
            split at h
            · simp at h
            · rename_i ha
              split at h
              · simp at h
              · rename_i ds hds
                simp only [Except.ok.injEq] at h; subst h
                rw [List.mem_singleton]
                have hpd := (checkAssignment_iff ..).1 hds
                have hsp := pointDenotes_split hpd
                have hla := pointDenotes_last hpd
                constructor
                · rintro rfl
                  rw [hla]
                  refine .set hc hv (by simpa using hb) (by simpa using ha) ?_
                  rw [← hla, ← hsp, hla]; exact hpd
                · intro hp
                  cases hp with
                  | set _ hv' _ _ hp =>
                    rw [hv] at hv'; injection hv' with hv'; subst hv'
                    rw [(checkAssignment_iff ..).2 hp] at hds; injection hds with hds
                    subst hds; simp

end Tarski

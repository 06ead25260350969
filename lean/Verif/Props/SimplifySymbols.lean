import Verif.Props.Simplify
/-! C31, the symbols kept by `simplify`. -/
namespace Tarski

mutual
/-- The symbol occurs in the effect: in its condition, its atom or its two sides. The condition of a universal effect is
not counted, as the code does not look at it (`C31_universal_refuted`). -/
def Effect.Mentions (x : Sym) : Effect → Prop
  | .add c p ts => UsesF x c ∨ UsesF x (.atom p ts)
  | .del c p ts => UsesF x c ∨ UsesF x (.atom p ts)
  | .lit c l => UsesF x c ∨ UsesF x l
  | .assign c f ts r => UsesF x c ∨ x = .fn f ∨ UsesTs x ts ∨ UsesT x r
  | .univ _ _ es => MentionsAny x es
def MentionsAny (x : Sym) : List Effect → Prop
  | [] => False
  | e :: es => e.Mentions x ∨ MentionsAny x es
end

mutual
/-- All quantifiers of the effect bind variables. -/
def Effect.Binders : Effect → Prop
  | .add c _ ts => VarBindersF c ∧ VarBindersTs ts
  | .del c _ ts => VarBindersF c ∧ VarBindersTs ts
  | .lit c l => VarBindersF c ∧ VarBindersF l
  | .assign c _ ts r => VarBindersF c ∧ VarBindersTs ts ∧ VarBindersT r
  | .univ _ _ es => BindersAll es
def BindersAll : List Effect → Prop
  | [] => True
  | e :: es => e.Binders ∧ BindersAll es
end

theorem symsTs_vars (x : Sym) : ∀ vs : List Term, (∀ t ∈ vs, ∃ v, t = Term.var v) → x ∉ symsTs vs
  | [], _ => by simp [symsTs]
  | t :: vs, h => by
    obtain ⟨v, rfl⟩ := h t (by simp)
    simp only [symsTs, symsT, List.nil_append]
    exact symsTs_vars x vs (fun t ht => h t (by simp [ht]))

mutual
theorem symsT_of_uses (x : Sym) : ∀ t, UsesT x t → x ∈ symsT t
  | .var _, h => h.elim
  | .const _ _, h => h.elim
  | .app f ts, h => by
    simp only [symsT, List.mem_cons]
    exact h.imp id (symsTs_of_uses x ts)
  | .ite c t e, h => by
    simp only [symsT, List.mem_append, or_assoc]
    exact h.imp (symsF_of_uses x c) (Or.imp (symsT_of_uses x t) (symsT_of_uses x e))
theorem symsTs_of_uses (x : Sym) : ∀ ts, UsesTs x ts → x ∈ symsTs ts
  | [], h => h.elim
  | t :: ts, h => by
    simp only [symsTs, List.mem_append]
    exact h.imp (symsT_of_uses x t) (symsTs_of_uses x ts)
theorem symsF_of_uses (x : Sym) : ∀ f, UsesF x f → x ∈ symsF f
  | .top, h => h.elim
  | .bot, h => h.elim
  | .atom (.cmp _) ts, h => symsTs_of_uses x ts h
  | .atom (.user p) ts, h => by
    simp only [symsF, List.mem_cons]
    exact h.imp id (symsTs_of_uses x ts)
  | .comp _ _ fs, h => symsFs_of_uses x fs h
  | .quant _ vs f, h => by
    simp only [symsF, List.mem_append]
    exact .inl (symsF_of_uses x f h)
theorem symsFs_of_uses (x : Sym) : ∀ fs, UsesFs x fs → x ∈ symsFs fs
  | [], h => h.elim
  | f :: fs, h => by
    simp only [symsFs, List.mem_append]
    exact h.imp (symsF_of_uses x f) (symsFs_of_uses x fs)
end

mutual
theorem uses_of_symsT (x : Sym) : ∀ t, VarBindersT t → x ∈ symsT t → UsesT x t
  | .var _, _, h => by simp [symsT] at h
  | .const _ _, _, h => by simp [symsT] at h
  | .app f ts, hb, h => by
    simp only [symsT, List.mem_cons] at h
    exact h.imp id (uses_of_symsTs x ts hb)
  | .ite c t e, hb, h => by
    simp only [symsT, List.mem_append, or_assoc] at h
    exact h.imp (uses_of_symsF x c hb.1) (Or.imp (uses_of_symsT x t hb.2.1) (uses_of_symsT x e hb.2.2))
theorem uses_of_symsTs (x : Sym) : ∀ ts, VarBindersTs ts → x ∈ symsTs ts → UsesTs x ts
  | [], _, h => by simp [symsTs] at h
  | t :: ts, hb, h => by
    simp only [symsTs, List.mem_append] at h
    exact h.imp (uses_of_symsT x t hb.1) (uses_of_symsTs x ts hb.2)
theorem uses_of_symsF (x : Sym) : ∀ f, VarBindersF f → x ∈ symsF f → UsesF x f
  | .top, _, h => by simp [symsF] at h
  | .bot, _, h => by simp [symsF] at h
  | .atom (.cmp _) ts, hb, h => uses_of_symsTs x ts hb h
  | .atom (.user p) ts, hb, h => by
    simp only [symsF, List.mem_cons] at h
    exact h.imp id (uses_of_symsTs x ts hb)
  | .comp _ _ fs, hb, h => uses_of_symsFs x fs hb h
  | .quant _ vs f, hb, h => by
    simp only [symsF, List.mem_append] at h
    exact h.elim (uses_of_symsF x f hb.2) (fun h => (symsTs_vars x vs hb.1 h).elim)
theorem uses_of_symsFs (x : Sym) : ∀ fs, VarBindersFs fs → x ∈ symsFs fs → UsesFs x fs
  | [], _, h => by simp [symsFs] at h
  | f :: fs, hb, h => by
    simp only [symsFs, List.mem_append] at h
    exact h.imp (uses_of_symsF x f hb.1) (uses_of_symsFs x fs hb.2)
end

mutual
theorem symsE_spec (x : Sym) : ∀ e xs, symsE e = .ok xs → (e.Mentions x → x ∈ xs) ∧ (e.Binders → x ∈ xs → e.Mentions x)
  | .add c p ts, xs, h => by
    simp only [symsE, Except.ok.injEq] at h; subst h
    simp only [Effect.Mentions, Effect.Binders, List.mem_append]
    exact ⟨Or.imp (symsF_of_uses x c) (symsF_of_uses x _),
      fun hb => Or.imp (uses_of_symsF x c hb.1) (uses_of_symsF x (.atom p ts) hb.2)⟩
  | .del c p ts, xs, h => by
    simp only [symsE, Except.ok.injEq] at h; subst h
    simp only [Effect.Mentions, Effect.Binders, List.mem_append]
    exact ⟨Or.imp (symsF_of_uses x c) (symsF_of_uses x _),
      fun hb => Or.imp (uses_of_symsF x c hb.1) (uses_of_symsF x (.atom p ts) hb.2)⟩
  | .lit _ _, xs, h => by simp [symsE] at h
  | .assign c f ts r, xs, h => by
    simp only [symsE, Except.ok.injEq] at h; subst h
    simp only [Effect.Mentions, Effect.Binders, List.mem_append, or_assoc]
    constructor
    · rintro (h | h | h | h)
      · exact .inl (symsF_of_uses x c h)
      · exact .inr (.inl (symsT_of_uses x (.app f ts) (.inl h)))
      · exact .inr (.inl (symsT_of_uses x (.app f ts) (.inr h)))
      · exact .inr (.inr (symsT_of_uses x r h))
    · rintro hb (h | h | h)
      · exact .inl (uses_of_symsF x c hb.1 h)
      · rcases uses_of_symsT x (.app f ts) hb.2.1 h with h | h
        · exact .inr (.inl h)
        · exact .inr (.inr (.inl h))
      · exact .inr (.inr (.inr (uses_of_symsT x r hb.2.2 h)))
  | .univ _ _ es, xs, h => by
    simp only [symsE] at h
    exact symsEs_spec x es xs h
theorem symsEs_spec (x : Sym) : ∀ es xs, symsEs es = .ok xs →
    (MentionsAny x es → x ∈ xs) ∧ (BindersAll es → x ∈ xs → MentionsAny x es)
  | [], xs, h => by
    simp only [symsEs, Except.ok.injEq] at h; subst h
    simp [MentionsAny]
  | e :: es, xs, h => by
    simp only [symsEs] at h
    cases h1 : symsE e with
    | error er => simp [h1] at h
    | ok ys =>
      cases h2 : symsEs es with
      | error er => simp [h1, h2] at h
      | ok zs =>
        simp only [h1, h2, Except.ok.injEq] at h; subst h
        have a := symsE_spec x e ys h1
        have b := symsEs_spec x es zs h2
        simp only [MentionsAny, BindersAll, List.mem_append]
        exact ⟨Or.imp a.1 b.1, fun hb => Or.imp (a.2 hb.1) (b.2 hb.2)⟩
end

/-- The symbol occurs in a simplified formula. -/
def Simp.Uses (x : Sym) : Simp → Prop
  | .bool _ => False
  | .form f => UsesF x f

/-- All quantifiers bind variables. -/
def Simp.Binders : Simp → Prop
  | .bool _ => True
  | .form f => VarBindersF f

theorem symsSimp_spec {x : Sym} {s : Simp} {xs} (h : symsSimp s = .ok xs) :
    (s.Uses x → x ∈ xs) ∧ (s.Binders → x ∈ xs → s.Uses x) := by
  cases s with
  | bool b => simp [symsSimp] at h
  | form f =>
    simp only [symsSimp, Except.ok.injEq] at h; subst h
    exact ⟨symsF_of_uses x f, uses_of_symsF x f⟩

theorem symsActs_spec (x : Sym) : ∀ (as : List (String × SSchema)) xs, symsActs as = .ok xs →
    ((∃ a ∈ as, a.2.pre.Uses x ∨ MentionsAny x a.2.effs) → x ∈ xs) ∧
    ((∀ a ∈ as, a.2.pre.Binders ∧ BindersAll a.2.effs) → x ∈ xs → ∃ a ∈ as, a.2.pre.Uses x ∨ MentionsAny x a.2.effs)
  | [], xs, h => by
    simp only [symsActs, Except.ok.injEq] at h; subst h; simp
  | (n, a) :: as, xs, h => by
    simp only [symsActs] at h
    cases h1 : symsSimp a.pre with
    | error e => simp [h1] at h
    | ok ys =>
      cases h2 : symsEs a.effs with
      | error e => simp [h1, h2] at h
      | ok zs =>
        cases h3 : symsActs as with
        | error e => simp [h1, h2, h3] at h
        | ok ws =>
          simp only [h1, h2, h3, Except.ok.injEq] at h; subst h
          have i1 := symsSimp_spec (x := x) h1
          have i2 := symsEs_spec x _ _ h2
          have i3 := symsActs_spec x _ _ h3
          simp only [List.mem_cons, exists_eq_or_imp, forall_eq_or_imp, List.mem_append]
          exact ⟨Or.imp (Or.imp i1.1 i2.1) i3.1,
            fun hb => Or.imp (Or.imp (i1.2 hb.1.1) (i2.2 hb.1.2)) (i3.2 hb.2)⟩

/-- C31, the symbols of the simplified problem: a symbol stays in the language if and only if it occurs in the simplified
goal, in a precondition or in an effect of a remaining action (in the condition of a universal effect does not count,
which is `C31_universal_refuted`), at any depth of nesting. Only the "only if" part needs quantifiers to bind variables. -/
theorem C31_symbols (C : Simplifier) (dom : Domains) (syms : List Sym) (init : MState) (goal : Formula)
    (acts : List (String × Schema)) (P : SProblem) (h : C.simplify dom syms init goal acts = .ok P) (x : Sym) :
    (x ∈ syms → (P.goal.Uses x ∨ ∃ a ∈ P.acts, a.2.pre.Uses x ∨ MentionsAny x a.2.effs) → x ∈ P.syms) ∧
    (P.goal.Binders → (∀ a ∈ P.acts, a.2.pre.Binders ∧ BindersAll a.2.effs) → x ∈ P.syms →
      x ∈ syms ∧ (P.goal.Uses x ∨ ∃ a ∈ P.acts, a.2.pre.Uses x ∨ MentionsAny x a.2.effs)) := by
  obtain ⟨_, _, used, hu, hs, _⟩ := C31_simplify C dom syms init goal acts P h
  simp only [collectAllSymbols] at hu
  cases h1 : symsSimp P.goal with
  | error e => simp [h1] at hu
  | ok ys =>
    cases h2 : symsActs P.acts with
    | error e => simp [h1, h2] at hu
    | ok zs =>
      simp only [h1, h2, Except.ok.injEq] at hu; subst hu
      have i1 := symsSimp_spec (x := x) h1
      have i2 := symsActs_spec x _ _ h2
      simp only [hs, List.mem_append]
      exact ⟨fun hx ho => ⟨hx, ho.imp i1.1 i2.1⟩, fun hg ha hx => ⟨hx.1, hx.2.imp (i1.2 hg) (i2.2 ha)⟩⟩

/-- Non-vacuity: an action with a universal effect that mentions `r` and a functional term, simplified without error;
`f` and `r` are kept, `s` is removed. -/
example :
    let e : Effect := .univ .top [⟨"?y", "block"⟩] [.add (.atom (.cmp .eq) [.app "f" [.var ⟨"?y", "block"⟩], exB1.toTerm])
      (.user "r") [.var ⟨"?y", "block"⟩]]
    let C : Simplifier := ⟨exLang, some exSimpInit, some []⟩
    ∃ P, C.simplify twoDom [.pred "p", .fn "f", .pred "r", .pred "s"] exSimpInit (.atom (.user "p") [exB1.toTerm])
        [("a", ⟨[], .atom (.user "p") [exB2.toTerm], [e]⟩)] = .ok P ∧ P.syms = [.pred "p", .fn "f", .pred "r"] :=
  ⟨_, rfl, rfl⟩

end Tarski

import Mathlib.Tactic.Common
import Mathlib.Data.List.Forall2
import Verif.CompileNegSpec
import Verif.SimplifyLemmas
import Verif.SimplifyEffects
import Verif.Props.Relaxation
import Verif.Props.Grounding
namespace Tarski

/-! ### The compiled formula -/

/-- What a literal becomes. -/
def negLit : Formula → Formula
  | .comp _ .not (.atom (.user p) ts :: _) => .atom (.user (negName p)) ts
  | f => f

/-- What a formula that is no disjunction becomes. -/
def cmpl (f : Formula) : Formula := land ((flattenAux .and f).map negLit) true

/-- The predicate of a negated literal has been registered. -/
def LitOK (negs : List String) (l : Formula) : Prop :=
  ∀ k p ts fs, l = .comp k .not (.atom (.user p) ts :: fs) → p ∈ negs

def Compiled (negs : List String) (f g : Formula) : Prop :=
  g = cmpl f ∧ ∀ l ∈ flattenAux .and f, LitOK negs l

theorem negName_inj {p q : String} (h : negName p = negName q) : p = q := by
  simp only [negName] at h
  exact (String.append_right_inj _).1 h

theorem LitOK.mono {n n' : List String} {l} (h : LitOK n l) (hs : ∀ p ∈ n, p ∈ n') : LitOK n' l :=
  fun k p ts fs he => hs p (h k p ts fs he)

theorem Compiled.mono {n n' : List String} {f g} (h : Compiled n f g) (hs : ∀ p ∈ n, p ∈ n') : Compiled n' f g :=
  ⟨h.1, fun l hl => (h.2 l hl).mono hs⟩

def StOK (used0 : List String) (st : NegSt) : Prop :=
  (∀ x ∈ used0, x ∈ st.used) ∧ (∀ p ∈ st.negs, p ∈ used0) ∧ (∀ p ∈ st.negs, negName p ∉ used0)

theorem registerNeg_ok {used0 : List String} {st st' : NegSt} {p : String} (h : registerNeg st p = .ok st') :
    p ∈ st'.negs ∧ (∀ q ∈ st.negs, q ∈ st'.negs) ∧ (p ∈ used0 → StOK used0 st → StOK used0 st') := by
  simp only [registerNeg] at h
  split at h
  · rename_i hp
    simp only [Except.ok.injEq] at h; subst h
    exact ⟨hp, fun q hq => hq, fun _ h => h⟩
  · split at h
    · simp at h
    · rename_i hn
      simp only [Except.ok.injEq] at h; subst h
      refine ⟨by simp, fun q hq => by simp [hq], fun hp hs => ⟨fun x hx => by simp [hs.1 x hx], ?_, ?_⟩⟩
      · intro q hq
        simp only [List.mem_append, List.mem_singleton] at hq
        rcases hq with hq | rfl
        · exact hs.2.1 q hq
        · exact hp
      · intro q hq
        simp only [List.mem_append, List.mem_singleton] at hq
        rcases hq with hq | rfl
        · exact hs.2.2 q hq
        · exact fun hc => hn (hs.1 _ hc)

theorem compileLit_ok {used0 : List String} {st st' : NegSt} {f g : Formula} (h : compileLit st f = .ok (g, st')) :
    g = negLit f ∧ LitOK st'.negs f ∧ (∀ q ∈ st.negs, q ∈ st'.negs) ∧ (KnownF used0 f → StOK used0 st → StOK used0 st') := by
  unfold compileLit at h
  split at h
  · rename_i k p ts fs
    cases hr : registerNeg st p with
    | error e => simp [hr] at h
    | ok s1 =>
      simp only [hr, Except.ok.injEq, Prod.mk.injEq] at h
      obtain ⟨rfl, rfl⟩ := h
      obtain ⟨h1, h2, h3⟩ := registerNeg_ok (used0 := used0) hr
      refine ⟨rfl, ?_, h2, fun hk => h3 (hk p (by simp [UsesF, UsesFs]))⟩
      intro k' p' ts' fs' he
      simp only [Formula.comp.injEq, List.cons.injEq, Formula.atom.injEq, PSym.user.injEq] at he
      rw [← he.2.2.1.1]; exact h1
  · simp only [Except.ok.injEq, Prod.mk.injEq] at h
    obtain ⟨rfl, rfl⟩ := h
    exact ⟨rfl, by intro k p ts fs he; simp at he, fun q hq => hq, fun _ h => h⟩
  · simp at h
  · rename_i f h1 h2 h3
    simp only [Except.ok.injEq, Prod.mk.injEq] at h
    obtain ⟨rfl, rfl⟩ := h
    refine ⟨?_, ?_, fun q hq => hq, fun _ h => h⟩
    · unfold negLit
      split
      · rename_i k p ts fs; exact absurd rfl (h1 k p ts fs)
      · rfl
    · intro k p ts fs he; exact absurd he (h1 k p ts fs)

theorem compileLits_ok {used0 : List String} : ∀ {fs : List Formula} {st st' : NegSt} {gs},
    compileLits st fs = .ok (gs, st') →
    gs = fs.map negLit ∧ (∀ l ∈ fs, isLiteral l = true) ∧ (∀ l ∈ fs, LitOK st'.negs l) ∧ (∀ q ∈ st.negs, q ∈ st'.negs) ∧
    ((∀ f ∈ fs, KnownF used0 f) → StOK used0 st → StOK used0 st')
  | [], st, st', gs, h => by
    simp only [compileLits, Except.ok.injEq, Prod.mk.injEq] at h
    obtain ⟨rfl, rfl⟩ := h
    exact ⟨rfl, by simp, by simp, fun q hq => hq, fun _ h => h⟩
  | f :: fs, st, st', gs, h => by
    simp only [compileLits] at h
    split at h
    · rename_i hlit
      cases h1 : compileLit st f with
      | error e => simp [h1] at h
      | ok r =>
        obtain ⟨g, s1⟩ := r
        cases h2 : compileLits s1 fs with
        | error e => simp [h1, h2] at h
        | ok r =>
          obtain ⟨gs', s2⟩ := r
          simp only [h1, h2, Except.ok.injEq, Prod.mk.injEq] at h
          obtain ⟨rfl, rfl⟩ := h
          obtain ⟨rfl, b, c, d⟩ := compileLit_ok (used0 := used0) h1
          obtain ⟨rfl, b0, b', c', d'⟩ := compileLits_ok (used0 := used0) h2
          refine ⟨rfl, ?_, ?_, fun q hq => c' q (c q hq), fun hk hs => d' (fun f hf => hk f (by simp [hf])) (d (hk f (by simp)) hs)⟩
          · intro l hl
            rcases List.mem_cons.1 hl with rfl | hl
            · exact hlit
            · exact b0 l hl
          · intro l hl
            rcases List.mem_cons.1 hl with rfl | hl
            · exact b.mono c'
            · exact b' l hl
    · simp at h

theorem usesFs_append {x : Sym} {fs gs : List Formula} : UsesFs x (fs ++ gs) ↔ UsesFs x fs ∨ UsesFs x gs := by
  induction fs with
  | nil => simp [UsesFs]
  | cons f fs ih => simp [UsesFs, ih, or_assoc]

theorem usesFs_mem {x : Sym} {fs : List Formula} : UsesFs x fs ↔ ∃ f ∈ fs, UsesF x f := by
  induction fs with
  | nil => simp [UsesFs]
  | cons f fs ih => simp [UsesFs, ih]

mutual
theorem uses_flattenAux (c : Conn) (x : Sym) : ∀ f, UsesFs x (flattenAux c f) ↔ UsesF x f
  | .comp k d fs => by
    simp only [flattenAux]
    split
    · simp only [UsesF]; exact uses_flattenAuxs c x fs
    · simp [UsesFs]
  | .top => by simp [flattenAux, UsesFs]
  | .bot => by simp [flattenAux, UsesFs]
  | .atom p ts => by simp [flattenAux, UsesFs]
  | .quant q vs f => by simp [flattenAux, UsesFs]
theorem uses_flattenAuxs (c : Conn) (x : Sym) : ∀ fs, UsesFs x (flattenAuxs c fs) ↔ UsesFs x fs
  | [] => by simp [flattenAuxs]
  | f :: fs => by simp [flattenAuxs, UsesFs, usesFs_append, uses_flattenAux c x f, uses_flattenAuxs c x fs]
end

theorem known_flattenAux {used : List String} {c f} (h : KnownF used f) : ∀ l ∈ flattenAux c f, KnownF used l :=
  fun l hl p hp => h p ((uses_flattenAux c _ f).1 (usesFs_mem.2 ⟨l, hl, hp⟩))

theorem compileFormula_ok {used0 : List String} {st st' : NegSt} {f g : Formula} (h : compileFormula st f = .ok (g, st')) :
    (∀ q ∈ st.negs, q ∈ st'.negs) ∧ (KnownF used0 f → StOK used0 st → StOK used0 st') ∧
    (NotOr f → Compiled st'.negs f g) := by
  unfold compileFormula at h
  cases f with
  | top => simp [flatten] at h
  | bot => simp [flatten] at h
  | quant q vs f => simp [flatten] at h
  | atom p ts =>
    simp only [flatten, Except.ok.injEq, Prod.mk.injEq] at h
    obtain ⟨rfl, rfl⟩ := h
    refine ⟨fun q hq => hq, fun _ h => h, fun _ => ⟨?_, ?_⟩⟩
    · simp [cmpl, flattenAux, negLit, land, createCompound]
    · simp [flattenAux, LitOK]
  | comp k c fs =>
    cases c with
    | not =>
      simp only [flatten] at h
      obtain ⟨rfl, b, c, d⟩ := compileLit_ok (used0 := used0) h
      refine ⟨c, d, fun _ => ⟨?_, ?_⟩⟩
      · simp [cmpl, flattenAux, land, createCompound]
      · simpa [flattenAux] using b
    | and =>
      simp only [flatten] at h
      cases hl : compileLits st (flattenAux .and (.comp k .and fs)) with
      | error e => simp [hl] at h
      | ok r =>
        obtain ⟨gs, s1⟩ := r
        simp only [hl, Except.ok.injEq, Prod.mk.injEq] at h
        obtain ⟨rfl, rfl⟩ := h
        obtain ⟨rfl, _, b, c, d⟩ := compileLits_ok (used0 := used0) hl
        exact ⟨c, fun hk => d (known_flattenAux hk), fun _ => ⟨rfl, b⟩⟩
    | or =>
      simp only [flatten] at h
      cases hl : compileLits st (flattenAux .or (.comp k .or fs)) with
      | error e => simp [hl] at h
      | ok r =>
        obtain ⟨gs, s1⟩ := r
        simp only [hl, Except.ok.injEq, Prod.mk.injEq] at h
        obtain ⟨rfl, rfl⟩ := h
        obtain ⟨rfl, _, b, c, d⟩ := compileLits_ok (used0 := used0) hl
        exact ⟨c, fun hk => d (known_flattenAux hk), fun hn => absurd rfl (hn k fs)⟩

/-! ### The compiled effects -/

def compEff (e : Effect) : Effect := e.setCond (cmpl e.cond)

theorem setCond_self (e : Effect) : e.setCond e.cond = e := by cases e <;> rfl

theorem cmpl_top : cmpl .top = .top := by simp [cmpl, flattenAux, negLit, land, createCompound]

theorem isTop_eq {f : Formula} (h : isTop f = true) : f = .top := by cases f <;> simp [isTop] at h ⊢

theorem compileConds_ok {used0 : List String} : ∀ {es : List Effect} {st st' : NegSt} {es'},
    compileConds st es = .ok (es', st') →
    (∀ q ∈ st.negs, q ∈ st'.negs) ∧ ((∀ e ∈ es, KnownF used0 e.cond) → StOK used0 st → StOK used0 st') ∧
    ((∀ e ∈ es, NotOr e.cond) → es' = es.map compEff ∧ ∀ e ∈ es, ∀ l ∈ flattenAux .and e.cond, LitOK st'.negs l)
  | [], st, st', es', h => by
    simp only [compileConds, Except.ok.injEq, Prod.mk.injEq] at h
    obtain ⟨rfl, rfl⟩ := h
    exact ⟨fun q hq => hq, fun _ h => h, fun _ => ⟨rfl, by simp⟩⟩
  | e :: es, st, st', es', h => by
    have hmain : ((if isTop e.cond then
        match compileConds st es with
        | .error er => .error er
        | .ok (es', st') => .ok (e :: es', st')
      else match compileFormula st e.cond with
        | .error er => .error er
        | .ok (c, st1) => match compileConds st1 es with
          | .error er => .error er
          | .ok (es', st') => .ok (e.setCond c :: es', st') : Except Err (List Effect × NegSt))) = .ok (es', st') := by
      cases e <;> simp only [compileConds] at h <;> first | exact h | simp at h
    clear h
    split at hmain
    · rename_i ht
      cases h1 : compileConds st es with
      | error er => simp [h1] at hmain
      | ok r =>
        obtain ⟨es1, s1⟩ := r
        simp only [h1, Except.ok.injEq, Prod.mk.injEq] at hmain
        obtain ⟨rfl, rfl⟩ := hmain
        obtain ⟨a, b, c⟩ := compileConds_ok (used0 := used0) h1
        refine ⟨a, fun hk => b (fun e he => hk e (by simp [he])), fun hn => ?_⟩
        obtain ⟨rfl, c2⟩ := c (fun e he => hn e (by simp [he]))
        have he : e.cond = .top := isTop_eq ht
        refine ⟨?_, ?_⟩
        · simp only [List.map_cons, compEff, he, cmpl_top]
          rw [← he, setCond_self]
        · intro e' he' l hl
          rcases List.mem_cons.1 he' with rfl | he'
          · rw [he] at hl
            simp only [flattenAux, List.mem_singleton] at hl
            subst hl; intro k p ts fs hh; simp at hh
          · exact c2 e' he' l hl
    · cases h0 : compileFormula st e.cond with
      | error er => simp [h0] at hmain
      | ok r =>
        obtain ⟨c, s0⟩ := r
        cases h1 : compileConds s0 es with
        | error er => simp [h0, h1] at hmain
        | ok r =>
          obtain ⟨es1, s1⟩ := r
          simp only [h0, h1, Except.ok.injEq, Prod.mk.injEq] at hmain
          obtain ⟨rfl, rfl⟩ := hmain
          obtain ⟨a0, b0, c0⟩ := compileFormula_ok (used0 := used0) h0
          obtain ⟨a, b, c⟩ := compileConds_ok (used0 := used0) h1
          refine ⟨fun q hq => a q (a0 q hq), fun hk hs => b (fun e he => hk e (by simp [he])) (b0 (hk e (by simp)) hs), fun hn => ?_⟩
          obtain ⟨rfl, c2⟩ := c (fun e he => hn e (by simp [he]))
          obtain ⟨rfl, c3⟩ := c0 (hn e (by simp))
          refine ⟨rfl, ?_⟩
          intro e' he' l hl
          rcases List.mem_cons.1 he' with rfl | he'
          · exact (c3 l hl).mono a
          · exact c2 e' he' l hl

theorem mem_converseEffs {negs : List String} : ∀ {es new : List Effect}, converseEffs negs es = .ok new → ∀ x,
    x ∈ new ↔ ∃ c p ts, p ∈ negs ∧ ((.add c (.user p) ts ∈ es ∧ x = .del c (.user (negName p)) ts) ∨
      (.del c (.user p) ts ∈ es ∧ x = .add c (.user (negName p)) ts))
  | [], new, h, x => by simp only [converseEffs, Except.ok.injEq] at h; subst h; simp
  | .add c (.user p) ts :: es, new, h, x => by
    simp only [converseEffs] at h
    cases h1 : converseEffs negs es with
    | error e => simp [h1] at h
    | ok new1 =>
      have ih := mem_converseEffs h1 x
      simp only [h1] at h
      split at h
      · rename_i hp
        simp only [Except.ok.injEq] at h; subst h
        rw [List.mem_cons, ih]
        constructor
        · rintro (rfl | ⟨c', p', ts', hp', h | h⟩)
          · exact ⟨c, p, ts, hp, .inl ⟨by simp, rfl⟩⟩
          · exact ⟨c', p', ts', hp', .inl ⟨by simp [h.1], h.2⟩⟩
          · exact ⟨c', p', ts', hp', .inr ⟨by simp [h.1], h.2⟩⟩
        · rintro ⟨c', p', ts', hp', ⟨h, rfl⟩ | ⟨h, rfl⟩⟩
          · rcases List.mem_cons.1 h with h | h
            · simp only [Effect.add.injEq, PSym.user.injEq] at h
              obtain ⟨rfl, rfl, rfl⟩ := h; exact .inl rfl
            · exact .inr ⟨c', p', ts', hp', .inl ⟨h, rfl⟩⟩
          · rcases List.mem_cons.1 h with h | h
            · simp at h
            · exact .inr ⟨c', p', ts', hp', .inr ⟨h, rfl⟩⟩
      · rename_i hp
        simp only [Except.ok.injEq] at h; subst h
        rw [ih]
        constructor
        · rintro ⟨c', p', ts', hp', h | h⟩
          · exact ⟨c', p', ts', hp', .inl ⟨by simp [h.1], h.2⟩⟩
          · exact ⟨c', p', ts', hp', .inr ⟨by simp [h.1], h.2⟩⟩
        · rintro ⟨c', p', ts', hp', ⟨h, rfl⟩ | ⟨h, rfl⟩⟩
          · rcases List.mem_cons.1 h with h | h
            · simp only [Effect.add.injEq, PSym.user.injEq] at h
              obtain ⟨_, rfl, _⟩ := h; exact absurd hp' hp
            · exact ⟨c', p', ts', hp', .inl ⟨h, rfl⟩⟩
          · rcases List.mem_cons.1 h with h | h
            · simp at h
            · exact ⟨c', p', ts', hp', .inr ⟨h, rfl⟩⟩
  | .del c (.user p) ts :: es, new, h, x => by
    simp only [converseEffs] at h
    cases h1 : converseEffs negs es with
    | error e => simp [h1] at h
    | ok new1 =>
      have ih := mem_converseEffs h1 x
      simp only [h1] at h
      split at h
      · rename_i hp
        simp only [Except.ok.injEq] at h; subst h
        rw [List.mem_cons, ih]
        constructor
        · rintro (rfl | ⟨c', p', ts', hp', h | h⟩)
          · exact ⟨c, p, ts, hp, .inr ⟨by simp, rfl⟩⟩
          · exact ⟨c', p', ts', hp', .inl ⟨by simp [h.1], h.2⟩⟩
          · exact ⟨c', p', ts', hp', .inr ⟨by simp [h.1], h.2⟩⟩
        · rintro ⟨c', p', ts', hp', ⟨h, rfl⟩ | ⟨h, rfl⟩⟩
          · rcases List.mem_cons.1 h with h | h
            · simp at h
            · exact .inr ⟨c', p', ts', hp', .inl ⟨h, rfl⟩⟩
          · rcases List.mem_cons.1 h with h | h
            · simp only [Effect.del.injEq, PSym.user.injEq] at h
              obtain ⟨rfl, rfl, rfl⟩ := h; exact .inl rfl
            · exact .inr ⟨c', p', ts', hp', .inr ⟨h, rfl⟩⟩
      · rename_i hp
        simp only [Except.ok.injEq] at h; subst h
        rw [ih]
        constructor
        · rintro ⟨c', p', ts', hp', h | h⟩
          · exact ⟨c', p', ts', hp', .inl ⟨by simp [h.1], h.2⟩⟩
          · exact ⟨c', p', ts', hp', .inr ⟨by simp [h.1], h.2⟩⟩
        · rintro ⟨c', p', ts', hp', ⟨h, rfl⟩ | ⟨h, rfl⟩⟩
          · rcases List.mem_cons.1 h with h | h
            · simp at h
            · exact ⟨c', p', ts', hp', .inl ⟨h, rfl⟩⟩
          · rcases List.mem_cons.1 h with h | h
            · simp only [Effect.del.injEq, PSym.user.injEq] at h
              obtain ⟨_, rfl, _⟩ := h; exact absurd hp' hp
            · exact ⟨c', p', ts', hp', .inr ⟨h, rfl⟩⟩
  | .add c (.cmp k) ts :: es, new, h, x => by
    simp only [converseEffs] at h
    rw [mem_converseEffs h x]; simp
  | .del c (.cmp k) ts :: es, new, h, x => by
    simp only [converseEffs] at h
    rw [mem_converseEffs h x]; simp
  | .lit c l :: es, new, h, x => by simp [converseEffs] at h
  | .assign c f ts r :: es, new, h, x => by simp [converseEffs] at h
  | .univ c vs fs :: es, new, h, x => by simp [converseEffs] at h

/-- The compiled action, for actions without disjunctive conditions. -/
structure ActRel (negs : List String) (a a2 : Schema) : Prop where
  params : a2.params = a.params
  pre : Compiled negs a.pre a2.pre
  conds : ∀ e ∈ a.effs, ∀ l ∈ flattenAux .and e.cond, LitOK negs l
  effs : ∃ new, converseEffs negs (a.effs.map compEff) = .ok new ∧ a2.effs = a.effs.map compEff ++ new

structure ActRel1 (negs : List String) (a a1 : Schema) : Prop where
  params : a1.params = a.params
  pre : Compiled negs a.pre a1.pre
  conds : ∀ e ∈ a.effs, ∀ l ∈ flattenAux .and e.cond, LitOK negs l
  effs : a1.effs = a.effs.map compEff

theorem ActRel1.mono {n n' : List String} {a a1} (h : ActRel1 n a a1) (hs : ∀ p ∈ n, p ∈ n') : ActRel1 n' a a1 :=
  ⟨h.params, h.pre.mono hs, fun e he l hl => (h.conds e he l hl).mono hs, h.effs⟩

theorem compileAction_ok {used0 : List String} {st st' : NegSt} {a a1 : Schema} (h : compileAction st a = .ok (a1, st')) :
    (∀ q ∈ st.negs, q ∈ st'.negs) ∧ (KnownAct used0 a → StOK used0 st → StOK used0 st') ∧
    (NoOrAct a → ActRel1 st'.negs a a1) := by
  simp only [compileAction] at h
  cases h1 : compileFormula st a.pre with
  | error e => simp [h1] at h
  | ok r =>
    obtain ⟨g, s1⟩ := r
    cases h2 : compileConds s1 a.effs with
    | error e => simp [h1, h2] at h
    | ok r =>
      obtain ⟨es, s2⟩ := r
      simp only [h1, h2, Except.ok.injEq, Prod.mk.injEq] at h
      obtain ⟨rfl, rfl⟩ := h
      obtain ⟨a0, b0, c0⟩ := compileFormula_ok (used0 := used0) h1
      obtain ⟨a1, b1, c1⟩ := compileConds_ok (used0 := used0) h2
      refine ⟨fun q hq => a1 q (a0 q hq), fun hk hs => b1 hk.2 (b0 hk.1 hs), fun hn => ?_⟩
      obtain ⟨h3, h4⟩ := c1 hn.2
      exact ⟨rfl, (c0 hn.1).mono a1, h4, h3⟩

theorem compileActions_ok {used0 : List String} : ∀ {as : List Schema} {st st' : NegSt} {as'},
    compileActions st as = .ok (as', st') →
    (∀ q ∈ st.negs, q ∈ st'.negs) ∧ ((∀ a ∈ as, KnownAct used0 a) → StOK used0 st → StOK used0 st') ∧
    List.Forall₂ (fun a a1 => NoOrAct a → ActRel1 st'.negs a a1) as as'
  | [], st, st', as', h => by
    simp only [compileActions, Except.ok.injEq, Prod.mk.injEq] at h
    obtain ⟨rfl, rfl⟩ := h
    exact ⟨fun q hq => hq, fun _ h => h, .nil⟩
  | a :: as, st, st', as', h => by
    simp only [compileActions] at h
    cases h1 : compileAction st a with
    | error e => simp [h1] at h
    | ok r =>
      obtain ⟨a1, s1⟩ := r
      cases h2 : compileActions s1 as with
      | error e => simp [h1, h2] at h
      | ok r =>
        obtain ⟨as1, s2⟩ := r
        simp only [h1, h2, Except.ok.injEq, Prod.mk.injEq] at h
        obtain ⟨rfl, rfl⟩ := h
        obtain ⟨a0, b0, c0⟩ := compileAction_ok (used0 := used0) h1
        obtain ⟨a1, b1, c1⟩ := compileActions_ok (used0 := used0) h2
        exact ⟨fun q hq => a1 q (a0 q hq), fun hk hs => b1 (fun a ha => hk a (by simp [ha])) (b0 (hk a (by simp)) hs),
          .cons (fun hn => (c0 hn).mono a1) c1⟩

theorem updateActions_ok {negs : List String} : ∀ {as as' : List Schema}, updateActions negs as = .ok as' →
    List.Forall₂ (fun a a' => updateAction negs a = .ok a') as as'
  | [], as', h => by simp only [updateActions, Except.ok.injEq] at h; subst h; exact .nil
  | a :: as, as', h => by
    simp only [updateActions] at h
    cases h1 : updateAction negs a with
    | error e => simp [h1] at h
    | ok a1 =>
      cases h2 : updateActions negs as with
      | error e => simp [h1, h2] at h
      | ok as1 =>
        simp only [h1, h2, Except.ok.injEq] at h
        subst h
        exact .cons h1 (updateActions_ok h2)

theorem actRel_of {negs : List String} {a a1 a2 : Schema} (h1 : ActRel1 negs a a1) (h2 : updateAction negs a1 = .ok a2) :
    ActRel negs a a2 := by
  simp only [updateAction] at h2
  cases h : converseEffs negs a1.effs with
  | error e => simp [h] at h2
  | ok new =>
    simp only [h, Except.ok.injEq] at h2
    subst h2
    exact ⟨h1.params, h1.pre, h1.conds, new, by rw [← h1.effs]; exact h, by simp [h1.effs]⟩

/-! ### Complementary states -/

mutual
theorem negConjunct_of_flatten {p ts k gs} : ∀ f, .comp k .not (.atom (.user p) ts :: gs) ∈ flattenAux .and f → NegConjunct p ts f
  | .comp k' d fs, h => by
    simp only [flattenAux] at h
    split at h
    · rename_i hd; subst hd
      obtain ⟨f, hf, hn⟩ := negConjunct_of_flattens fs h
      exact .sub hf hn
    · simp only [List.mem_singleton, Formula.comp.injEq] at h
      obtain ⟨rfl, rfl, rfl⟩ := h
      exact .here
  | .top, h => by simp [flattenAux] at h
  | .bot, h => by simp [flattenAux] at h
  | .atom q us, h => by simp [flattenAux] at h
  | .quant q vs f, h => by simp [flattenAux] at h
theorem negConjunct_of_flattens {p ts k gs} : ∀ fs, .comp k .not (.atom (.user p) ts :: gs) ∈ flattenAuxs .and fs →
    ∃ f ∈ fs, NegConjunct p ts f
  | [], h => by simp [flattenAuxs] at h
  | f :: fs, h => by
    rcases List.mem_append.1 h with h | h
    · exact ⟨f, by simp, negConjunct_of_flatten f h⟩
    · obtain ⟨g, hg, hn⟩ := negConjunct_of_flattens fs h
      exact ⟨g, by simp [hg], hn⟩
end

theorem subFs_append (s : Subst) (as bs : List Formula) : subFs s (as ++ bs) = subFs s as ++ subFs s bs := by
  simp [subFs_eq_map]

mutual
theorem evAll_sub_flattenAux (L : MLang) (m : MState) (σ) (s : Subst) : ∀ f,
    evAll L m σ (subFs s (flattenAux .and f)) = evFormula L m σ (subF s f)
  | .comp k d fs => by
    simp only [flattenAux]
    split
    · rename_i h; subst h
      simp only [subF, evFormula]
      exact evAll_sub_flattenAuxs L m σ s fs
    · simp only [subFs]; exact evAll_single ..
  | .top => by simp [flattenAux, subFs, subF, evAll, evFormula]
  | .bot => by simp [flattenAux, subFs, subF, evAll, evFormula]
  | .atom p ts => by simp only [flattenAux, subFs]; exact evAll_single ..
  | .quant q vs f => by simp only [flattenAux, subFs]; exact evAll_single ..
theorem evAll_sub_flattenAuxs (L : MLang) (m : MState) (σ) (s : Subst) : ∀ fs,
    evAll L m σ (subFs s (flattenAuxs .and fs)) = evAll L m σ (subFs s fs)
  | [] => rfl
  | f :: fs => by
    rw [flattenAuxs, subFs_append, evAll_append, evAll_sub_flattenAux L m σ s f, evAll_sub_flattenAuxs L m σ s fs]
    simp only [evAll, subFs]
    cases evFormula L m σ (subF s f) with
    | error e => rfl
    | ok b => cases b <;> rfl
end

theorem ev_land (L : MLang) (m : MState) (σ) (s : Subst) (gs : List Formula) :
    evFormula L m σ (subF s (land gs true)) = evAll L m σ (subFs s gs) := by
  match gs with
  | [] => simp [land, subF, subFs, evFormula, evAll]
  | [a] => simp only [land, createCompound, List.isEmpty_cons, Bool.false_eq_true, if_false, subFs]; exact (evAll_single ..).symm
  | a :: b :: rest => simp [land, createCompound, subF, evFormula]

theorem uses_land {x : Sym} {gs : List Formula} (h : UsesF x (land gs true)) : UsesFs x gs := by
  match gs with
  | [] => simp [land, UsesF] at h
  | [a] => simpa [land, createCompound, UsesFs] using h
  | a :: b :: rest => simpa [land, createCompound, UsesF] using h

theorem uses_cmpl {negs : List String} {x : Sym} {f : Formula} (hl : ∀ l ∈ flattenAux .and f, LitOK negs l)
    (h : UsesF x (cmpl f)) : UsesF x f ∨ ∃ p ∈ negs, x = .pred (negName p) ∧ UsesF (.pred p) f := by
  obtain ⟨g, hg, hx⟩ := usesFs_mem.1 (uses_land h)
  obtain ⟨l, hl', rfl⟩ := List.mem_map.1 hg
  have hsub : ∀ y, UsesF y l → UsesF y f := fun y hy => (uses_flattenAux .and y f).1 (usesFs_mem.2 ⟨l, hl', hy⟩)
  unfold negLit at hx
  split at hx
  · rename_i k p ts fs
    simp only [UsesF] at hx
    rcases hx with hx | hx
    · exact .inr ⟨p, hl _ hl' k p ts fs rfl, hx, hsub _ (by simp [UsesF, UsesFs])⟩
    · exact .inl (hsub _ (by simp [UsesF, UsesFs, hx]))
  · exact .inl (hsub _ hx)

/-- Names of complementary predicates are not used by known formulas. -/
theorem known_same {L : MLang} {dom : Domains} {negs used : List String} {m m' : MState}
    (hc : Complementary L dom negs m m') (hn : ∀ p ∈ negs, negName p ∉ used) {U : Sym → Prop}
    (hk : ∀ p, U (.pred p) → p ∈ used) : ∀ x, U x → SameOn L m m' x := by
  intro x hx
  refine hc.same x (fun p hp he => ?_)
  subst he
  exact hn p hp (hk _ hx)

theorem lit_eval {L : MLang} {dom : Domains} {negs used : List String} {m m' : MState} {s : Subst}
    (hc : Complementary L dom negs m m') (hn : ∀ p ∈ negs, negName p ∉ used) (hs : ValsConst s) {l : Formula}
    (hk : KnownF used l) (hl : LitOK negs l)
    (ht : ∀ k p ts fs, l = .comp k .not (.atom (.user p) ts :: fs) → ∀ pt, evTerms L m noSigma .eval (subTs s ts) = .ok pt →
      InSig L dom p pt) :
    evFormula L m' noSigma (subF s (negLit l)) = evFormula L m noSigma (subF s l) := by
  unfold negLit
  split
  · rename_i k p ts fs
    have hp := hl k p ts fs rfl
    have he : evTerms L m noSigma .eval (subTs s ts) = evTerms L m' noSigma .eval (subTs s ts) := by
      refine evTerms_same .eval _ (known_same hc hn (U := fun x => UsesTs x (subTs s ts)) (fun q hq => ?_))
      exact hk q (by simp only [UsesF, UsesFs]; exact .inl (.inr (uses_subTs hs _ ts hq)))
    simp only [subF, subFs, evFormula, ← he]
    cases hpt : evTerms L m noSigma .eval (subTs s ts) with
    | error e => rfl
    | ok pt => simp only [hc.neg p hp pt (ht k p ts fs rfl pt hpt)]
  · refine (evFormula_same _ (known_same hc hn (U := fun x => UsesF x (subF s l)) (fun q hq => ?_))).symm
    exact hk q (uses_subF hs _ l hq)

theorem cmpl_eval {L : MLang} {dom : Domains} {negs used : List String} {m m' : MState} {s : Subst}
    (hc : Complementary L dom negs m m') (hn : ∀ p ∈ negs, negName p ∉ used) (hs : ValsConst s) {f : Formula}
    (hk : KnownF used f) (hl : ∀ l ∈ flattenAux .and f, LitOK negs l)
    (ht : ∀ p ts, NegConjunct p ts f → ∀ pt, evTerms L m noSigma .eval (subTs s ts) = .ok pt → InSig L dom p pt) :
    evFormula L m' noSigma (subF s (cmpl f)) = evFormula L m noSigma (subF s f) := by
  rw [cmpl, ev_land, ← evAll_sub_flattenAux L m]
  have hkl := known_flattenAux (c := .and) hk
  have htl : ∀ l ∈ flattenAux .and f, ∀ k p ts fs, l = .comp k .not (.atom (.user p) ts :: fs) → ∀ pt,
      evTerms L m noSigma .eval (subTs s ts) = .ok pt → InSig L dom p pt := by
    rintro l hl k p ts fs rfl
    exact ht p ts (negConjunct_of_flatten f hl)
  generalize flattenAux .and f = ls at hl hkl htl
  induction ls with
  | nil => rfl
  | cons l ls ih =>
    simp only [List.map_cons, subFs, evAll]
    rw [lit_eval hc hn hs (hkl l (by simp)) (hl l (by simp)) (htl l (by simp)),
      ih (fun l h => hl l (by simp [h])) (fun l h => hkl l (by simp [h])) (fun l h => htl l (by simp [h]))]

mutual
theorem ev_subT_nil (L : MLang) (m : MState) (σ) : ∀ (mode : EvMode) (t : Term), evTerm L m σ mode (subT [] t) = evTerm L m σ mode t
  | mode, .var v => by simp [subT, Subst.visit, Subst.get?]
  | mode, .const n so => by simp [subT, Subst.visit, Subst.get?]
  | mode, .app f ts => by
    simp only [subT, Subst.visit, Subst.get?, List.reverse_nil, List.find?_nil, Option.map_none, Option.getD_none, evTerm,
      ev_subTs_nil L m σ _ ts]
  | mode, .ite c t e => by
    simp only [subT, Subst.visit, Subst.get?, List.reverse_nil, List.find?_nil, Option.map_none, Option.getD_none, evTerm,
      ev_subF_nil L m σ c, ev_subT_nil L m σ _ t, ev_subT_nil L m σ _ e]
theorem ev_subTs_nil (L : MLang) (m : MState) (σ) : ∀ (mode : EvMode) (ts : List Term), evTerms L m σ mode (subTs [] ts) = evTerms L m σ mode ts
  | mode, [] => rfl
  | mode, t :: ts => by simp only [subTs, evTerms, ev_subT_nil L m σ mode t, ev_subTs_nil L m σ mode ts]
theorem ev_subF_nil (L : MLang) (m : MState) (σ) : ∀ f : Formula, evFormula L m σ (subF [] f) = evFormula L m σ f
  | .top => rfl
  | .bot => rfl
  | .atom (.user p) ts => by simp only [subF, evFormula, ev_subTs_nil L m σ _ ts]
  | .atom (.cmp c) ts => by simp only [subF, evFormula, ev_subTs_nil L m σ _ ts]
  | .comp k .and fs => by simp only [subF, evFormula, ev_all_nil L m σ fs]
  | .comp k .or fs => by simp only [subF, evFormula, ev_any_nil L m σ fs]
  | .comp k .not [] => by simp [subF, subFs, evFormula]
  | .comp k .not (f :: fs) => by simp only [subF, subFs, evFormula, ev_subF_nil L m σ f]
  | .quant q vs f => by simp [subF, evFormula]
theorem ev_all_nil (L : MLang) (m : MState) (σ) : ∀ fs : List Formula, evAll L m σ (subFs [] fs) = evAll L m σ fs
  | [] => rfl
  | f :: fs => by simp only [subFs, evAll, ev_subF_nil L m σ f, ev_all_nil L m σ fs]
theorem ev_any_nil (L : MLang) (m : MState) (σ) : ∀ fs : List Formula, evAny L m σ (subFs [] fs) = evAny L m σ fs
  | [] => rfl
  | f :: fs => by simp only [subFs, evAny, ev_subF_nil L m σ f, ev_any_nil L m σ fs]
end

/-! ### Ground effects -/

theorem ground_returns {L : MLang} {dom : Domains} {m : MState} {s : Subst} {es : List Effect} (hg : GroundEffs L s es) {e}
    (he : e ∈ es) : (∃ m1, applyEffect L dom m (subE s e) = .ok m1) ↔ ∃ b, evFormula L m noSigma (subF s e.cond) = .ok b := by
  obtain ⟨c, p, ts, pt, h | h, hts, hw⟩ := hg e he
  · subst h
    simp only [subE, applyEffect_add, Effect.cond, hts, termArg_toTerm]
    cases hc : evFormula L m noSigma (subF s c) with
    | error er => simp
    | ok b =>
      cases b with
      | false => simp
      | true =>
        simp only [MState.add]
        rw [(checkAssignment_iff ..).2 (pointDenotes_consts.2 ⟨rfl, hw⟩)]
        simp [raising]
  · subst h
    simp only [subE, applyEffect_del, Effect.cond, hts, termArg_toTerm]
    cases hc : evFormula L m noSigma (subF s c) with
    | error er => simp
    | ok b =>
      cases b with
      | false => simp
      | true =>
        simp only [MState.discardP, MState.discard]
        rw [(wrapTuple_iff ..).2 (refersTo_consts.2 rfl)]
        cases dlookup m.preds (L.psig p) <;> simp [raising]

theorem ground_add {L : MLang} {dom : Domains} {m : MState} {s : Subst} {es : List Effect} (hg : GroundEffs L s es) (q pt) :
    (∃ e ∈ subEs s es, Produces L dom m e (.add q pt)) ↔
      ∃ c ts, .add c (.user q) ts ∈ es ∧ subTs s ts = pt.map Const.toTerm ∧ evFormula L m noSigma (subF s c) = .ok true := by
  rw [subEs_eq_map]
  constructor
  · rintro ⟨e', he', hp⟩
    obtain ⟨e, he, rfl⟩ := List.mem_map.1 he'
    obtain ⟨c, p, ts, pt', h | h, hts, hw⟩ := hg e he
    · subst h
      simp only [subE] at hp
      cases hp with
      | add hc hd =>
        rw [hts, termArg_toTerm, pointDenotes_consts] at hd
        refine ⟨c, ts, he, ?_, hc⟩
        rw [hts, hd.1]
    · subst h; simp only [subE] at hp; cases hp
  · rintro ⟨c, ts, he, hts, hc⟩
    refine ⟨subE s (.add c (.user q) ts), List.mem_map.2 ⟨_, he, rfl⟩, ?_⟩
    obtain ⟨c', p, ts', pt', h | h, hts', hw⟩ := hg _ he
    · simp only [Effect.add.injEq, PSym.user.injEq] at h
      obtain ⟨rfl, rfl, rfl⟩ := h
      have : pt = pt' := toTerm_inj (hts.symm.trans hts')
      subst this
      simp only [subE]
      exact .add hc (by rw [hts, termArg_toTerm, pointDenotes_consts]; exact ⟨rfl, hw⟩)
    · simp at h

theorem ground_del {L : MLang} {dom : Domains} {m : MState} {s : Subst} {es : List Effect} (hg : GroundEffs L s es) (q pt) :
    (∃ e ∈ subEs s es, Produces L dom m e (.del q pt)) ↔
      ∃ c ts, .del c (.user q) ts ∈ es ∧ subTs s ts = pt.map Const.toTerm ∧ evFormula L m noSigma (subF s c) = .ok true := by
  rw [subEs_eq_map]
  constructor
  · rintro ⟨e', he', hp⟩
    obtain ⟨e, he, rfl⟩ := List.mem_map.1 he'
    obtain ⟨c, p, ts, pt', h | h, hts, hw⟩ := hg e he
    · subst h; simp only [subE] at hp; cases hp
    · subst h
      simp only [subE] at hp
      cases hp with
      | del hc hd =>
        rw [hts, termArg_toTerm, refersTo_consts] at hd
        refine ⟨c, ts, he, ?_, hc⟩
        rw [hts, hd]
  · rintro ⟨c, ts, he, hts, hc⟩
    refine ⟨subE s (.del c (.user q) ts), List.mem_map.2 ⟨_, he, rfl⟩, ?_⟩
    simp only [subE]
    exact .del hc (by rw [hts, termArg_toTerm, refersTo_consts])

theorem ground_set {L : MLang} {dom : Domains} {m : MState} {s : Subst} {es : List Effect} (hg : GroundEffs L s es) {e f pt c}
    (he : e ∈ subEs s es) : ¬ Produces L dom m e (.set f pt c) := by
  intro hp
  rw [subEs_eq_map] at he
  obtain ⟨e0, he0, rfl⟩ := List.mem_map.1 he
  obtain ⟨c, p, ts, pt', h | h, hts, hw⟩ := hg e0 he0 <;> (subst h; simp only [subE] at hp; cases hp)

/-- Progress with ground adds and deletes that do not influence each other. -/
theorem ground_progress {L : MLang} {dom : Domains} (hd : ConstDoms dom) {m : MState} {s : Subst} (hs : ValsConst s)
    {es : List Effect} (hg : GroundEffs L s es) (hflow : ∀ a ∈ es, ∀ b ∈ es, NoFlow a b) :
    ((∃ m1, progress L dom m (subEs s es) = .ok m1) ↔ ∀ e ∈ es, ∃ b, evFormula L m noSigma (subF s e.cond) = .ok b) ∧
    ∀ m1, progress L dom m (subEs s es) = .ok m1 → Simultaneous L dom m (subEs s es) m1 := by
  have hmem : ∀ e ∈ subEs s es, ∃ e0 ∈ es, e = subE s e0 := by
    intro e he
    rw [subEs_eq_map] at he
    obtain ⟨e0, he0, rfl⟩ := List.mem_map.1 he
    exact ⟨e0, he0, rfl⟩
  have hf : (delsFirst (subEs s es)).Pairwise NoFlow := by
    rw [List.pairwise_iff_forall_sublist]
    intro a b hab
    have ha := hab.subset (show a ∈ [a, b] by simp)
    have hb := hab.subset (show b ∈ [a, b] by simp)
    obtain ⟨a0, ha0, rfl⟩ := hmem a (mem_delsFirst.1 ha)
    obtain ⟨b0, hb0, rfl⟩ := hmem b (mem_delsFirst.1 hb)
    intro x hw hr
    exact hflow a0 ha0 b0 hb0 x ((writes_subE s x a0).1 hw) (reads_subE hs x b0 hr)
  have hself : ∀ e ∈ subEs s es, SelfContained e := by
    intro e he
    obtain ⟨e0, he0, rfl⟩ := hmem e he
    obtain ⟨c, p, ts, pt', h | h, hts, hw⟩ := hg e0 he0 <;> (subst h; simp [subE, SelfContained])
  constructor
  · rw [C25_returns_partial L dom m _ hd hf hself]
    constructor
    · intro h e he
      exact (ground_returns hg he).1 (h (subE s e) (by rw [subEs_eq_map]; exact List.mem_map.2 ⟨e, he, rfl⟩))
    · intro h e he
      obtain ⟨e0, he0, rfl⟩ := hmem e he
      exact (ground_returns hg he0).2 (h e0 he0)
  · intro m1 h
    refine C25_simultaneous_partial L dom m m1 _ hd hf hself ?_ ?_ h
    · intro p pt e he e' he' hnd hp
      obtain ⟨e0, he0, rfl⟩ := hmem e he
      obtain ⟨c, p', ts, pt', h | h, hts, hw⟩ := hg e0 he0
      · subst h; simp only [subE] at hp; cases hp
      · subst h; simp [subE, Effect.isDel] at hnd
    · intro f pt c d e he e' he' hp
      exact absurd hp (ground_set hg he)

/-! ### One step -/

theorem mem_effs2 {negs : List String} {a a2 : Schema} (h : ActRel negs a a2) (x : Effect) :
    x ∈ a2.effs ↔ (∃ e ∈ a.effs, x = compEff e) ∨ ∃ c p ts, p ∈ negs ∧
      ((.add c (.user p) ts ∈ a.effs ∧ x = .del (cmpl c) (.user (negName p)) ts) ∨
       (.del c (.user p) ts ∈ a.effs ∧ x = .add (cmpl c) (.user (negName p)) ts)) := by
  obtain ⟨new, hn, he⟩ := h.effs
  rw [he, List.mem_append, mem_converseEffs hn, List.mem_map]
  refine or_congr ⟨fun ⟨e, h1, h2⟩ => ⟨e, h1, h2.symm⟩, fun ⟨e, h1, h2⟩ => ⟨e, h1, h2.symm⟩⟩ ?_
  have hadd : ∀ c p ts, Effect.add c p ts ∈ a.effs.map compEff ↔ ∃ c0, .add c0 p ts ∈ a.effs ∧ c = cmpl c0 := by
    intro c p ts
    rw [List.mem_map]
    constructor
    · rintro ⟨e, he, h⟩
      cases e <;> simp only [compEff, Effect.setCond, Effect.cond, Effect.add.injEq, reduceCtorEq] at h
      obtain ⟨rfl, rfl, rfl⟩ := h
      exact ⟨_, he, rfl⟩
    · rintro ⟨c0, he, rfl⟩; exact ⟨_, he, rfl⟩
  have hdel : ∀ c p ts, Effect.del c p ts ∈ a.effs.map compEff ↔ ∃ c0, .del c0 p ts ∈ a.effs ∧ c = cmpl c0 := by
    intro c p ts
    rw [List.mem_map]
    constructor
    · rintro ⟨e, he, h⟩
      cases e <;> simp only [compEff, Effect.setCond, Effect.cond, Effect.del.injEq, reduceCtorEq] at h
      obtain ⟨rfl, rfl, rfl⟩ := h
      exact ⟨_, he, rfl⟩
    · rintro ⟨c0, he, rfl⟩; exact ⟨_, he, rfl⟩
  constructor
  · rintro ⟨c, p, ts, hp, ⟨h1, rfl⟩ | ⟨h1, rfl⟩⟩
    · obtain ⟨c0, h0, rfl⟩ := (hadd ..).1 h1
      exact ⟨c0, p, ts, hp, .inl ⟨h0, rfl⟩⟩
    · obtain ⟨c0, h0, rfl⟩ := (hdel ..).1 h1
      exact ⟨c0, p, ts, hp, .inr ⟨h0, rfl⟩⟩
  · rintro ⟨c, p, ts, hp, ⟨h1, rfl⟩ | ⟨h1, rfl⟩⟩
    · exact ⟨_, p, ts, hp, .inl ⟨(hadd ..).2 ⟨c, h1, rfl⟩, rfl⟩⟩
    · exact ⟨_, p, ts, hp, .inr ⟨(hdel ..).2 ⟨c, h1, rfl⟩, rfl⟩⟩

theorem mem_add2 {negs : List String} {a a2 : Schema} (h : ActRel negs a a2) (c' q ts) :
    .add c' (.user q) ts ∈ a2.effs ↔ (∃ c, .add c (.user q) ts ∈ a.effs ∧ c' = cmpl c) ∨
      ∃ p ∈ negs, q = negName p ∧ ∃ c, .del c (.user p) ts ∈ a.effs ∧ c' = cmpl c := by
  rw [mem_effs2 h]
  constructor
  · rintro (⟨e, he, h⟩ | ⟨c, p, ts', hp, ⟨_, h⟩ | ⟨h1, h⟩⟩)
    · cases e <;> simp only [compEff, Effect.setCond, Effect.cond, Effect.add.injEq, reduceCtorEq] at h
      obtain ⟨rfl, rfl, rfl⟩ := h
      exact .inl ⟨_, he, rfl⟩
    · simp at h
    · simp only [Effect.add.injEq, PSym.user.injEq] at h
      obtain ⟨rfl, rfl, rfl⟩ := h
      exact .inr ⟨p, hp, rfl, c, h1, rfl⟩
  · rintro (⟨c, he, rfl⟩ | ⟨p, hp, rfl, c, he, rfl⟩)
    · exact .inl ⟨_, he, rfl⟩
    · exact .inr ⟨c, p, ts, hp, .inr ⟨he, rfl⟩⟩

theorem mem_del2 {negs : List String} {a a2 : Schema} (h : ActRel negs a a2) (c' q ts) :
    .del c' (.user q) ts ∈ a2.effs ↔ (∃ c, .del c (.user q) ts ∈ a.effs ∧ c' = cmpl c) ∨
      ∃ p ∈ negs, q = negName p ∧ ∃ c, .add c (.user p) ts ∈ a.effs ∧ c' = cmpl c := by
  rw [mem_effs2 h]
  constructor
  · rintro (⟨e, he, h⟩ | ⟨c, p, ts', hp, ⟨h1, h⟩ | ⟨_, h⟩⟩)
    · cases e <;> simp only [compEff, Effect.setCond, Effect.cond, Effect.del.injEq, reduceCtorEq] at h
      obtain ⟨rfl, rfl, rfl⟩ := h
      exact .inl ⟨_, he, rfl⟩
    · simp only [Effect.del.injEq, PSym.user.injEq] at h
      obtain ⟨rfl, rfl, rfl⟩ := h
      exact .inr ⟨p, hp, rfl, c, h1, rfl⟩
    · simp at h
  · rintro (⟨c, he, rfl⟩ | ⟨p, hp, rfl, c, he, rfl⟩)
    · exact .inl ⟨_, he, rfl⟩
    · exact .inr ⟨c, p, ts, hp, .inl ⟨he, rfl⟩⟩

/-- What is assumed about the language: complementary names are new and have the sorts of the original. -/
structure NegsOK (L : MLang) (negs used : List String) : Prop where
  new : ∀ p ∈ negs, negName p ∉ used
  known : ∀ p ∈ negs, p ∈ used
  sorts : ∀ p ∈ negs, L.psorts (negName p) = L.psorts p

theorem ground_effs2 {L : MLang} {negs used : List String} (hN : NegsOK L negs used) {a a2 : Schema} {s : Subst}
    (h : ActRel negs a a2) (hg : GroundEffs L s a.effs) : GroundEffs L s a2.effs := by
  intro x hx
  rcases (mem_effs2 h x).1 hx with ⟨e, he, rfl⟩ | ⟨c, p, ts, hp, ⟨h1, rfl⟩ | ⟨h1, rfl⟩⟩
  · obtain ⟨c, p, ts, pt, h | h, h2⟩ := hg e he
    · subst h; exact ⟨_, p, ts, pt, .inl rfl, h2⟩
    · subst h; exact ⟨_, p, ts, pt, .inr rfl, h2⟩
  · obtain ⟨c', p', ts', pt, h | h, h2, h3⟩ := hg _ h1
    · simp only [Effect.add.injEq, PSym.user.injEq] at h
      obtain ⟨rfl, rfl, rfl⟩ := h
      exact ⟨_, _, _, pt, .inr rfl, h2, by simpa only [WellTyped, hN.sorts p hp] using h3⟩
    · simp at h
  · obtain ⟨c', p', ts', pt, h | h, h2, h3⟩ := hg _ h1
    · simp at h
    · simp only [Effect.del.injEq, PSym.user.injEq] at h
      obtain ⟨rfl, rfl, rfl⟩ := h
      exact ⟨_, _, _, pt, .inl rfl, h2, by simpa only [WellTyped, hN.sorts p hp] using h3⟩

theorem effs2_reads {L : MLang} {negs : List String} {a a2 : Schema} {s : Subst} (h : ActRel negs a a2)
    (hg : GroundEffs L s a.effs) {x : Effect} (hx : x ∈ a2.effs) :
    ∃ e ∈ a.effs, (∀ y, x.Reads y → e.Reads y ∨ ∃ p ∈ negs, y = .pred (negName p) ∧ e.Reads (.pred p)) ∧
      (∀ y, x.Writes y → e.Writes y ∨ ∃ p ∈ negs, y = .pred (negName p) ∧ e.Writes (.pred p)) ∧
      (x.cond = cmpl e.cond) := by
  rcases (mem_effs2 h x).1 hx with ⟨e, he, rfl⟩ | ⟨c, p, ts, hp, ⟨h1, rfl⟩ | ⟨h1, rfl⟩⟩
  · refine ⟨e, he, ?_⟩
    have hl := h.conds e he
    obtain ⟨c, p, ts, pt, h | h, h2⟩ := hg e he
    · subst h
      exact ⟨fun y hy => uses_cmpl hl hy, fun y hy => .inl hy, rfl⟩
    · subst h
      exact ⟨fun y hy => uses_cmpl hl hy, fun y hy => .inl hy, rfl⟩
  · refine ⟨_, h1, fun y hy => uses_cmpl (h.conds _ h1) hy, fun y hy => .inr ?_, rfl⟩
    obtain ⟨n, hn, rfl⟩ := hy
    simp only [PSym.user.injEq] at hn; subst hn
    exact ⟨p, hp, rfl, p, rfl, rfl⟩
  · refine ⟨_, h1, fun y hy => uses_cmpl (h.conds _ h1) hy, fun y hy => .inr ?_, rfl⟩
    obtain ⟨n, hn, rfl⟩ := hy
    simp only [PSym.user.injEq] at hn; subst hn
    exact ⟨p, hp, rfl, p, rfl, rfl⟩

theorem flow_effs2 {L : MLang} {negs used : List String} (hN : NegsOK L negs used) {a a2 : Schema} {s : Subst}
    (h : ActRel negs a a2) (hg : GroundEffs L s a.effs) (hk : KnownAct used a) (hh : KnownHeads used a)
    (hflow : ∀ e ∈ a.effs, ∀ e' ∈ a.effs, NoFlow e e') : ∀ e ∈ a2.effs, ∀ e' ∈ a2.effs, NoFlow e e' := by
  intro x hx y hy z hw hr
  obtain ⟨e, he, _, h1, _⟩ := effs2_reads h hg hx
  obtain ⟨e', he', h2, _, _⟩ := effs2_reads h hg hy
  have hkr : ∀ p, e'.Reads (.pred p) → p ∈ used := by
    intro p hp
    obtain ⟨c, q, ts, pt, h | h, _⟩ := hg e' he'
    · subst h; exact hk.2 _ he' p hp
    · subst h; exact hk.2 _ he' p hp
  rcases h1 z hw with hw | ⟨p, hp, rfl, hw'⟩
  · rcases h2 z hr with hr | ⟨q, hq, rfl, hr⟩
    · exact hflow e he e' he' z hw hr
    · exact hN.new q hq (hh e he _ hw)
  · rcases h2 _ hr with hr | ⟨q, hq, hpq, hr⟩
    · exact hN.new p hp (hkr _ hr)
    · simp only [Sym.pred.injEq] at hpq
      have := negName_inj hpq
      subst this
      exact hflow e he e' he' _ hw' hr

theorem compl_bool {A D : Prop} {b0 b1 b2 : Bool} (h : ¬ (A ∧ D)) (h1 : b1 = true ↔ A ∨ (b0 = true ∧ ¬ D))
    (h2 : b2 = true ↔ D ∨ ((!b0) = true ∧ ¬ A)) : b2 = !b1 := by
  revert h h1 h2
  by_cases hA : A <;> by_cases hD : D <;> cases b0 <;> cases b1 <;> cases b2 <;> simp [hA, hD]

theorem compl_bool' {A : Prop} {b0 b1 b2 : Bool} (hA : A) (h0 : b0 = false ∨ b0 = !b2)
    (h : b1 = true ↔ b0 = true ∨ (A ∧ b2 = false)) : b1 = !b2 := by
  revert h0 h
  cases b0 <;> cases b1 <;> cases b2 <;> simp [hA]

theorem step_sim {L : MLang} {dom : Domains} (hd : ConstDoms dom) {negs used : List String} (hN : NegsOK L negs used)
    {m0 m m' : MState} {a a2 : Schema} {s : Subst} (hk : KnownAct used a) (hh : KnownHeads used a)
    (h : ActRel negs a a2) (ok : StepOK L dom negs m0 a s) (hc : Complementary L dom negs m m')
    (hf : ∀ g pt, m.value L g pt = m0.value L g pt) :
    ((∃ e, progress L dom m (subEs s a.effs) = .error e) ∧ ∃ e, progress L dom m' (subEs s a2.effs) = .error e) ∨
    ∃ m1 m1', progress L dom m (subEs s a.effs) = .ok m1 ∧ progress L dom m' (subEs s a2.effs) = .ok m1' ∧
      Complementary L dom negs m1 m1' ∧ ∀ g pt, m1.value L g pt = m0.value L g pt := by
  have hg2 := ground_effs2 hN h ok.ground
  have hfl2 := flow_effs2 hN h ok.ground hk hh ok.flow
  obtain ⟨r1, s1⟩ := ground_progress hd ok.vals ok.ground ok.flow (m := m)
  obtain ⟨r2, s2⟩ := ground_progress hd ok.vals hg2 hfl2 (m := m')
  have hev : ∀ e ∈ a.effs, evFormula L m' noSigma (subF s (cmpl e.cond)) = evFormula L m noSigma (subF s e.cond) :=
    fun e he => cmpl_eval hc hN.new ok.vals (hk.2 e he) (h.conds e he)
      (fun p ts hp pt hpt => ok.typed _ (.inr ⟨e, he, rfl⟩) p ts hp m hf pt hpt)
  have hret : (∃ m1, progress L dom m (subEs s a.effs) = .ok m1) ↔ ∃ m1, progress L dom m' (subEs s a2.effs) = .ok m1 := by
    rw [r1, r2]
    constructor
    · intro hall x hx
      obtain ⟨e, he, _, _, hcond⟩ := effs2_reads h ok.ground hx
      rw [hcond, hev e he]; exact hall e he
    · intro hall e he
      have := hall (compEff e) ((mem_effs2 h _).2 (.inl ⟨e, he, rfl⟩))
      rw [← hev e he]
      have hce : (compEff e).cond = cmpl e.cond := by cases e <;> rfl
      rwa [hce] at this
  cases hp1 : progress L dom m (subEs s a.effs) with
  | error er =>
    left
    refine ⟨⟨er, rfl⟩, ?_⟩
    cases hp2 : progress L dom m' (subEs s a2.effs) with
    | error er2 => exact ⟨er2, rfl⟩
    | ok m1' => obtain ⟨m1, hm1⟩ := hret.2 ⟨m1', hp2⟩; rw [hp1] at hm1; cases hm1
  | ok m1 =>
    right
    obtain ⟨m1', hp2⟩ := hret.1 ⟨m1, hp1⟩
    refine ⟨m1, m1', rfl, hp2, ?_, ?_⟩
    · have S1 := s1 m1 hp1
      have S2 := s2 m1' hp2
      -- adds and deletes of an ordinary symbol are the same
      have hadd : ∀ q, (∀ p ∈ negs, q ≠ negName p) → ∀ pt, (∃ e ∈ subEs s a2.effs, Produces L dom m' e (.add q pt)) ↔
          ∃ e ∈ subEs s a.effs, Produces L dom m e (.add q pt) := by
        intro q hq pt
        rw [ground_add hg2, ground_add ok.ground]
        constructor
        · rintro ⟨c', ts, hm, hts, hcv⟩
          rcases (mem_add2 h c' q ts).1 hm with ⟨c, he, rfl⟩ | ⟨p, hp, hqp, _⟩
          · exact ⟨c, ts, he, hts, by have := hev _ he; simp only [Effect.cond] at this; rw [← this]; exact hcv⟩
          · exact absurd hqp (hq p hp)
        · rintro ⟨c, ts, hm, hts, hcv⟩
          exact ⟨cmpl c, ts, (mem_add2 h _ q ts).2 (.inl ⟨c, hm, rfl⟩), hts,
            by have := hev _ hm; simp only [Effect.cond] at this; rw [this]; exact hcv⟩
      have hdel : ∀ q, (∀ p ∈ negs, q ≠ negName p) → ∀ pt, (∃ e ∈ subEs s a2.effs, Produces L dom m' e (.del q pt)) ↔
          ∃ e ∈ subEs s a.effs, Produces L dom m e (.del q pt) := by
        intro q hq pt
        rw [ground_del hg2, ground_del ok.ground]
        constructor
        · rintro ⟨c', ts, hm, hts, hcv⟩
          rcases (mem_del2 h c' q ts).1 hm with ⟨c, he, rfl⟩ | ⟨p, hp, hqp, _⟩
          · exact ⟨c, ts, he, hts, by have := hev _ he; simp only [Effect.cond] at this; rw [← this]; exact hcv⟩
          · exact absurd hqp (hq p hp)
        · rintro ⟨c, ts, hm, hts, hcv⟩
          exact ⟨cmpl c, ts, (mem_del2 h _ q ts).2 (.inl ⟨c, hm, rfl⟩), hts,
            by have := hev _ hm; simp only [Effect.cond] at this; rw [this]; exact hcv⟩
      -- no original effect has a complementary head
      have hno : ∀ p ∈ negs, ∀ e ∈ a.effs, ¬ e.Writes (.pred (negName p)) := fun p hp e he hw => hN.new p hp (hh e he _ hw)
      have hnadd : ∀ p ∈ negs, ∀ pt, (∃ e ∈ subEs s a2.effs, Produces L dom m' e (.add (negName p) pt)) ↔
          ∃ e ∈ subEs s a.effs, Produces L dom m e (.del p pt) := by
        intro p hp pt
        rw [ground_add hg2, ground_del ok.ground]
        constructor
        · rintro ⟨c', ts, hm, hts, hcv⟩
          rcases (mem_add2 h c' _ ts).1 hm with ⟨c, he, rfl⟩ | ⟨q, hq, hqp, c, he, rfl⟩
          · exact absurd ⟨_, rfl, rfl⟩ (hno p hp _ he)
          · have := negName_inj hqp; subst this
            exact ⟨c, ts, he, hts, by have := hev _ he; simp only [Effect.cond] at this; rw [← this]; exact hcv⟩
        · rintro ⟨c, ts, hm, hts, hcv⟩
          exact ⟨cmpl c, ts, (mem_add2 h _ _ ts).2 (.inr ⟨p, hp, rfl, c, hm, rfl⟩), hts,
            by have := hev _ hm; simp only [Effect.cond] at this; rw [this]; exact hcv⟩
      have hndel : ∀ p ∈ negs, ∀ pt, (∃ e ∈ subEs s a2.effs, Produces L dom m' e (.del (negName p) pt)) ↔
          ∃ e ∈ subEs s a.effs, Produces L dom m e (.add p pt) := by
        intro p hp pt
        rw [ground_del hg2, ground_add ok.ground]
        constructor
        · rintro ⟨c', ts, hm, hts, hcv⟩
          rcases (mem_del2 h c' _ ts).1 hm with ⟨c, he, rfl⟩ | ⟨q, hq, hqp, c, he, rfl⟩
          · exact absurd ⟨_, rfl, rfl⟩ (hno p hp _ he)
          · have := negName_inj hqp; subst this
            exact ⟨c, ts, he, hts, by have := hev _ he; simp only [Effect.cond] at this; rw [← this]; exact hcv⟩
        · rintro ⟨c, ts, hm, hts, hcv⟩
          exact ⟨cmpl c, ts, (mem_del2 h _ _ ts).2 (.inr ⟨p, hp, rfl, c, hm, rfl⟩), hts,
            by have := hev _ hm; simp only [Effect.cond] at this; rw [this]; exact hcv⟩
      refine ⟨?_, ?_⟩
      · intro x hx
        cases x with
        | pred q =>
          have hq : ∀ p ∈ negs, q ≠ negName p := fun p hp he => hx p hp (by rw [he])
          intro pt
          have h0 := hc.same (.pred q) hx pt
          rw [Bool.eq_iff_iff, S1.1, S2.1, hadd q hq, hdel q hq, h0]
        | fn g =>
          intro pt
          have h0 := hc.same (.fn g) hx pt
          refine value_ext (fun c => ?_)
          rw [S1.2, S2.2, h0]
          constructor
          · rintro (⟨e, he, hp⟩ | ⟨hv, _⟩)
            · exact absurd hp (ground_set ok.ground he)
            · exact .inr ⟨hv, fun ⟨e, he, d, hp⟩ => ground_set hg2 he hp⟩
          · rintro (⟨e, he, hp⟩ | ⟨hv, _⟩)
            · exact absurd hp (ground_set hg2 he)
            · exact .inr ⟨hv, fun ⟨e, he, d, hp⟩ => ground_set ok.ground he hp⟩
      · intro p hp pt hin
        have h0 := hc.neg p hp pt hin
        have hboth : ¬ ((∃ e ∈ subEs s a.effs, Produces L dom m e (.add p pt)) ∧ ∃ e ∈ subEs s a.effs, Produces L dom m e (.del p pt)) := by
          rw [ground_add ok.ground, ground_del ok.ground]
          rintro ⟨⟨c, ts, h1, h2, _⟩, ⟨c', ts', h3, h4, _⟩⟩
          exact ok.noBoth p hp c ts c' ts' h1 h3 (h2.trans h4.symm)
        have e2 := S2.1 (negName p) pt
        rw [hnadd p hp, hndel p hp, h0] at e2
        have e1 := S1.1 p pt
        exact compl_bool hboth e1 e2
    · intro g pt
      rw [← hf g pt]
      refine value_ext (fun c => ?_)
      rw [(s1 m1 hp1).2]
      constructor
      · rintro (⟨e, he, hp⟩ | ⟨hv, _⟩)
        · exact absurd hp (ground_set ok.ground he)
        · exact hv
      · intro hv
        exact .inr ⟨hv, fun ⟨e, he, d, hp⟩ => ground_set ok.ground he hp⟩

/-! ### The initial state -/

theorem sigDomains_ok {dom : Domains} : ∀ {ss : List String} {ds}, sigDomains dom ss = .ok ds →
    List.Forall₂ (fun s d => dom s = .ok d) ss ds
  | [], ds, h => by simp only [sigDomains, Except.ok.injEq] at h; subst h; exact .nil
  | s :: ss, ds, h => by
    simp only [sigDomains] at h
    cases h1 : dom s with
    | error e => simp [h1] at h
    | ok d =>
      cases h2 : sigDomains dom ss with
      | error e => simp [h1, h2] at h
      | ok ds' =>
        simp only [h1, h2, Except.ok.injEq] at h
        subst h
        exact .cons h1 (sigDomains_ok h2)

theorem sigBindings_mem {dom : Domains} {ss : List String} {bs} (h : sigBindings dom ss = .ok bs) (b : List Term) :
    b ∈ bs ↔ List.Forall₂ (fun t s => ∃ d, dom s = .ok d ∧ t ∈ d) b ss := by
  simp only [sigBindings] at h
  cases h1 : sigDomains dom ss with
  | error e => simp [h1] at h
  | ok ds =>
    simp only [h1, Except.ok.injEq] at h
    subst h
    rw [mem_cart]
    have hf := sigDomains_ok h1
    clear h1
    induction hf generalizing b with
    | nil => simp
    | cons hd _ ih =>
      rename_i s d ss ds _
      cases b with
      | nil => simp
      | cons t b =>
        simp only [List.forall₂_cons, ih]
        refine and_congr_left (fun _ => ⟨fun h => ⟨_, hd, h⟩, ?_⟩)
        rintro ⟨d', hd', ht⟩
        rw [hd] at hd'; injection hd' with hd'; subst hd'; exact ht

/-- Adding a list of ground atoms of one predicate. -/
theorem addAll_spec {L : MLang} {q : String} : ∀ {pts : List (List Const)} {m m' : MState},
    seqApply (fun m b => raising (m.add L (.user q) b)) m (pts.map (·.map Arg.const)) = .ok m' →
    (∀ x, x ≠ .pred q → SameOn L m m' x) ∧ ∀ pt, m'.holds L q pt = true ↔ m.holds L q pt = true ∨ pt ∈ pts
  | [], m, m', h => by
    simp only [List.map_nil, seqApply, Except.ok.injEq] at h
    subst h
    exact ⟨fun x _ => SameOn.refl .., by simp⟩
  | pt :: pts, m, m', h => by
    simp only [List.map_cons, seqApply, MState.add] at h
    cases hc : checkAssignment L (L.psorts q) (pt.map Arg.const) with
    | error e => simp [hc, raising] at h
    | ok pt' =>
      have hpt := (pointDenotes_consts.1 ((checkAssignment_iff ..).1 hc)).1
      subst hpt
      simp only [hc, raising] at h
      have heq : ({ m with preds := dinsert m.preds (L.psig q) (ptAdd ((dlookup m.preds (L.psig q)).getD []) pt') } : MState)
        = Change.apply L m (.add q pt') := rfl
      rw [heq] at h
      obtain ⟨h1, h2⟩ := addAll_spec h
      refine ⟨fun x hx => SameOn.trans ?_ (h1 x hx), fun pt => ?_⟩
      · cases x with
        | pred r =>
          intro ot
          rw [Bool.eq_iff_iff, holds_change]
          simp only [Change.add.injEq, reduceCtorEq, ne_eq, not_false_eq_true, and_true]
          constructor
          · exact fun h => .inr h
          · rintro (⟨rfl, _⟩ | h)
            · exact absurd rfl hx
            · exact h
        | fn f =>
          intro ot
          refine value_ext (fun c => ?_)
          rw [value_change]; simp
      · rw [h2, holds_change]
        simp only [Change.add.injEq, true_and, reduceCtorEq, ne_eq, not_false_eq_true, and_true, List.mem_cons]
        constructor
        · rintro ((h | h) | h)
          · exact .inr (.inl h.symm)
          · exact .inl h
          · exact .inr (.inr h)
        · rintro (h | h | h)
          · exact .inl (.inr h)
          · exact .inl (.inl h.symm)
          · exact .inr h

theorem consts_map {b : List Term} (h : ∀ t ∈ b, ∃ n so, t = Term.const n so) : ∃ pt : List Const, b = pt.map Const.toTerm := by
  induction b with
  | nil => exact ⟨[], rfl⟩
  | cons t b ih =>
    obtain ⟨pt, rfl⟩ := ih (fun t ht => h t (by simp [ht]))
    obtain ⟨n, so, rfl⟩ := h t (by simp)
    exact ⟨⟨n, so⟩ :: pt, rfl⟩

theorem forall₂_toTerm {dom : Domains} {pt : List Const} {ss : List String} :
    List.Forall₂ (fun t s => ∃ d, dom s = .ok d ∧ t ∈ d) (pt.map Const.toTerm) ss ↔
      List.Forall₂ (fun c s => ∃ d, dom s = .ok d ∧ Const.toTerm c ∈ d) pt ss := by
  rw [List.forall₂_map_left_iff]

theorem inExtension_consts (L : MLang) (m : MState) (p : String) (pt : List Const) :
    inExtension L m p (pt.map Const.toTerm) = m.holds L p pt := by
  simp only [inExtension, termArg_toTerm]
  rw [(wrapTuple_iff ..).2 (refersTo_consts.2 rfl)]

theorem addComplement_spec {L : MLang} {dom : Domains} (hd : ConstDoms dom) {m m' : MState} {p : String}
    (h : addComplement L dom m p = .ok m') :
    (∀ x, x ≠ .pred (negName p) → SameOn L m m' x) ∧
    ∀ pt, m'.holds L (negName p) pt = true ↔
      m.holds L (negName p) pt = true ∨ (InSig L dom p pt ∧ m.holds L p pt = false) := by
  simp only [addComplement] at h
  cases hb : sigBindings dom (L.psorts p) with
  | error e => simp [hb] at h
  | ok bs =>
    simp only [hb] at h
    have hmem := sigBindings_mem hb
    have hconst : ∀ b ∈ bs, ∃ pt : List Const, b = pt.map Const.toTerm := by
      intro b hbm
      refine consts_map ?_
      have hf := (hmem b).1 hbm
      clear hbm h hb hmem
      generalize L.psorts p = ss at hf
      induction hf with
      | nil => simp
      | cons h _ ih =>
        rename_i t s b ss _
        obtain ⟨d, hds, ht⟩ := h
        intro u hu
        rcases List.mem_cons.1 hu with rfl | hu
        · exact hd s d hds _ ht
        · exact ih u hu
    -- as points
    obtain ⟨pts, hpts⟩ : ∃ pts : List (List Const), bs.filter (fun b => !inExtension L m p b) = pts.map (·.map Const.toTerm) := by
      have : ∀ l : List (List Term), (∀ b ∈ l, ∃ pt : List Const, b = pt.map Const.toTerm) →
          ∃ pts : List (List Const), l = pts.map (·.map Const.toTerm) := by
        intro l
        induction l with
        | nil => exact fun _ => ⟨[], rfl⟩
        | cons b l ih =>
          intro hl
          obtain ⟨pts, rfl⟩ := ih (fun b hb => hl b (by simp [hb]))
          obtain ⟨pt, rfl⟩ := hl b (by simp)
          exact ⟨pt :: pts, rfl⟩
      exact this _ (fun b hbm => hconst b (List.mem_filter.1 hbm).1)
    have hseq : seqApply (fun m b => raising (m.add L (.user (negName p)) b)) m (pts.map (·.map Arg.const)) = .ok m' := by
      rw [hpts] at h
      rw [seqApply_map] at h ⊢
      rw [← h]
      refine seqApply_congr ?_ _
      intro pt _ m0
      rw [termArg_toTerm]
    obtain ⟨h1, h2⟩ := addAll_spec hseq
    refine ⟨h1, fun pt => ?_⟩
    rw [h2]
    refine or_congr_right ?_
    have hm : pt ∈ pts ↔ pt.map Const.toTerm ∈ bs.filter (fun b => !inExtension L m p b) := by
      rw [hpts, List.mem_map]
      constructor
      · exact fun h => ⟨pt, h, rfl⟩
      · rintro ⟨q, hq, he⟩
        rwa [← toTerm_inj he]
    rw [hm, List.mem_filter, hmem, forall₂_toTerm, inExtension_consts]
    simp [InSig]

theorem addComplements_spec {L : MLang} {dom : Domains} (hd : ConstDoms dom) {used : List String} {m0 : MState} :
    ∀ {rest done : List String} {m m' : MState}, NegsOK L (done ++ rest) used →
    Complementary L dom done m0 m → (∀ p ∈ rest, ∀ pt, m0.holds L (negName p) pt = false) →
    seqApply (addComplement L dom) m rest = .ok m' → Complementary L dom (done ++ rest) m0 m'
  | [], done, m, m', hN, hc, _, h => by
    simp only [seqApply, Except.ok.injEq] at h
    subst h
    simpa using hc
  | p :: rest, done, m, m', hN, hc, hfr, h => by
    simp only [seqApply] at h
    cases h1 : addComplement L dom m p with
    | error e => simp [h1] at h
    | ok m1 =>
      simp only [h1] at h
      obtain ⟨h2, h3⟩ := addComplement_spec hd h1
      have hnp : ∀ q ∈ done ++ p :: rest, ∀ q' ∈ done ++ p :: rest, (Sym.pred q) ≠ .pred (negName q') := by
        intro q hq q' hq' he
        simp only [Sym.pred.injEq] at he
        exact hN.new q' hq' (he ▸ hN.known q hq)
      have : done ++ p :: rest = (done ++ [p]) ++ rest := by simp
      rw [this] at hN ⊢
      refine addComplements_spec hd hN ⟨?_, ?_⟩ (fun q hq => hfr q (by simp [hq])) h
      · intro x hx
        exact (hc.same x (fun q hq => hx q (by simp [hq]))).trans (h2 x (hx p (by simp)))
      · intro q hq pt hin
        have hsp : m.holds L q pt = m0.holds L q pt := by
          have := hc.same (.pred q) (fun q' hq' => hnp q (by
            simp only [List.mem_append, List.mem_singleton] at hq
            rcases hq with hq | hq
            · exact List.mem_append_left _ hq
            · rw [hq]; simp) q' (by simp [hq'])) pt
          exact this.symm
        by_cases hqp : q = p
        · subst hqp
          have h4 := h3 pt
          have hm : m.holds L (negName q) pt = m0.holds L (negName q) pt ∨ q ∈ done := by
            by_cases hqd : q ∈ done
            · exact .inr hqd
            · left
              refine (hc.same (.pred (negName q)) (fun q' hq' he => ?_) pt).symm
              simp only [Sym.pred.injEq] at he
              exact hqd (negName_inj he ▸ hq')
          rw [hsp] at h4
          rcases hm with hm | hm
          · exact compl_bool' hin (.inl (hm.trans (hfr q (by simp) pt))) h4
          · exact compl_bool' hin (.inr (hc.neg q hm pt hin |>.trans rfl)) h4
        · have hqd : q ∈ done := by
            simp only [List.mem_append, List.mem_singleton] at hq
            exact hq.resolve_right hqp
          have := h2 (.pred (negName q)) (by
            intro he
            simp only [Sym.pred.injEq] at he
            exact hqp (negName_inj he)) pt
          rw [← this]
          exact hc.neg q hqd pt hin

theorem declareNegs_ok (L : MLang) {negs used : List String} (h1 : ∀ p ∈ negs, p ∈ used) (h2 : ∀ p ∈ negs, negName p ∉ used) :
    NegsOK (declareNegs L negs) negs used := by
  refine ⟨h2, h1, fun p hp => ?_⟩
  simp only [declareNegs]
  have hn : negs.find? (fun q => negName q == p) = none := by
    rw [List.find?_eq_none]
    intro q hq he
    rw [beq_iff_eq] at he
    exact h2 q hq (he ▸ h1 p hp)
  rw [hn]
  cases hs : negs.find? (fun q => negName q == negName p) with
  | none =>
    rw [List.find?_eq_none] at hs
    exact absurd (by simp) (hs p hp)
  | some q =>
    have := List.find?_some hs
    simp only [beq_iff_eq] at this
    rw [negName_inj this]

end Tarski

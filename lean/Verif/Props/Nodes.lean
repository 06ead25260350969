import Mathlib.Tactic.Common
import Verif.Nodes
import Verif.FreeVarsLemmas
import Verif.Props.Constructors
import Verif.Props.Subst
/-! C57: queries on the nodes of an expression are exact. C58: queries leave the expression as it is. -/
namespace Tarski

/-! ### Specification -/

/-- The expression `a` is an immediate part of the expression `b`. -/
inductive Part : Node → Node → Prop
  | app {g ts t} : t ∈ ts → Part (.t t) (.t (.app g ts))
  | iteCond {c a b} : Part (.f c) (.t (.ite c a b))
  | iteThen {c a b} : Part (.t a) (.t (.ite c a b))
  | iteElse {c a b} : Part (.t b) (.t (.ite c a b))
  | atom {p ts t} : t ∈ ts → Part (.t t) (.f (.atom p ts))
  | comp {k c fs f} : f ∈ fs → Part (.f f) (.f (.comp k c fs))
  | scope {q vs f} : Part (.f f) (.f (.quant q vs f))
  | binder {q vs f v} : v ∈ vs → Part (.t v) (.f (.quant q vs f))

/-- The expression `a` occurs in the expression `b`. -/
inductive Occurs : Node → Node → Prop
  | refl {a} : Occurs a a
  | step {a b c} : Occurs a b → Part b c → Occurs a c

/-! ### Lemmas -/

theorem occurs_iff {a c : Node} : Occurs a c ↔ a = c ∨ ∃ b, Occurs a b ∧ Part b c :=
  ⟨fun h => by cases h with
    | refl => exact .inl rfl
    | step h1 h2 => exact .inr ⟨_, h1, h2⟩,
   fun h => by
    rcases h with rfl | ⟨b, h1, h2⟩
    · exact .refl
    · exact .step h1 h2⟩

mutual
theorem mem_nodesT (t : Term) (n : Node) : n ∈ nodesT t ↔ ∃ m, Occurs m (.t t) ∧ n = m.walk := by
  match t with
  | .var v =>
    simp only [nodesT, List.mem_singleton]
    constructor
    · rintro rfl; exact ⟨_, .refl, rfl⟩
    · rintro ⟨m, h, rfl⟩
      rcases occurs_iff.1 h with rfl | ⟨b, -, hb⟩
      · rfl
      · cases hb
  | .const c s =>
    simp only [nodesT, List.mem_singleton]
    constructor
    · rintro rfl; exact ⟨_, .refl, rfl⟩
    · rintro ⟨m, h, rfl⟩
      rcases occurs_iff.1 h with rfl | ⟨b, -, hb⟩
      · rfl
      · cases hb
  | .app g ts =>
    simp only [nodesT, List.mem_append, List.mem_singleton, mem_nodesTs ts n]
    constructor
    · rintro (⟨u, hu, m, hm, rfl⟩ | rfl)
      · exact ⟨m, .step hm (.app hu), rfl⟩
      · exact ⟨_, .refl, rfl⟩
    · rintro ⟨m, h, rfl⟩
      rcases occurs_iff.1 h with rfl | ⟨b, h1, hb⟩
      · exact .inr rfl
      · cases hb with
        | app hu => exact .inl ⟨_, hu, m, h1, rfl⟩
  | .ite c a b =>
    simp only [nodesT, List.mem_append, List.mem_singleton, mem_nodesF c n, mem_nodesT a n, mem_nodesT b n]
    constructor
    · rintro ((⟨m, hm, rfl⟩ | ⟨m, hm, rfl⟩ | ⟨m, hm, rfl⟩) | rfl)
      · exact ⟨m, .step hm .iteCond, rfl⟩
      · exact ⟨m, .step hm .iteThen, rfl⟩
      · exact ⟨m, .step hm .iteElse, rfl⟩
      · exact ⟨_, .refl, rfl⟩
    · rintro ⟨m, h, rfl⟩
      rcases occurs_iff.1 h with rfl | ⟨b, h1, hb⟩
      · exact .inr rfl
      · cases hb with
        | iteCond => exact .inl (.inl ⟨m, h1, rfl⟩)
        | iteThen => exact .inl (.inr (.inl ⟨m, h1, rfl⟩))
        | iteElse => exact .inl (.inr (.inr ⟨m, h1, rfl⟩))
theorem mem_nodesTs (ts : List Term) (n : Node) : n ∈ nodesTs ts ↔ ∃ u ∈ ts, ∃ m, Occurs m (.t u) ∧ n = m.walk := by
  match ts with
  | [] => simp [nodesTs]
  | t :: ts => simp only [nodesTs, List.mem_append, mem_nodesT t n, mem_nodesTs ts n, List.mem_cons, exists_eq_or_imp]
theorem mem_nodesF (f : Formula) (n : Node) : n ∈ nodesF f ↔ ∃ m, Occurs m (.f f) ∧ n = m.walk := by
  match f with
  | .top =>
    simp only [nodesF, List.mem_singleton]
    constructor
    · rintro rfl; exact ⟨_, .refl, rfl⟩
    · rintro ⟨m, h, rfl⟩
      rcases occurs_iff.1 h with rfl | ⟨b, -, hb⟩
      · rfl
      · cases hb
  | .bot =>
    simp only [nodesF, List.mem_singleton]
    constructor
    · rintro rfl; exact ⟨_, .refl, rfl⟩
    · rintro ⟨m, h, rfl⟩
      rcases occurs_iff.1 h with rfl | ⟨b, -, hb⟩
      · rfl
      · cases hb
  | .atom p ts =>
    simp only [nodesF, List.mem_append, List.mem_singleton, mem_nodesTs ts n]
    constructor
    · rintro (⟨u, hu, m, hm, rfl⟩ | rfl)
      · exact ⟨m, .step hm (.atom hu), rfl⟩
      · exact ⟨_, .refl, rfl⟩
    · rintro ⟨m, h, rfl⟩
      rcases occurs_iff.1 h with rfl | ⟨b, h1, hb⟩
      · exact .inr rfl
      · cases hb with
        | atom hu => exact .inl ⟨_, hu, m, h1, rfl⟩
  | .comp k c fs =>
    simp only [nodesF, List.mem_append, List.mem_singleton, mem_nodesFs fs n]
    constructor
    · rintro (⟨u, hu, m, hm, rfl⟩ | rfl)
      · exact ⟨m, .step hm (.comp hu), rfl⟩
      · exact ⟨_, .refl, rfl⟩
    · rintro ⟨m, h, rfl⟩
      rcases occurs_iff.1 h with rfl | ⟨b, h1, hb⟩
      · exact .inr rfl
      · cases hb with
        | comp hu => exact .inl ⟨_, hu, m, h1, rfl⟩
  | .quant q vs f =>
    simp only [nodesF, List.mem_append, List.mem_singleton, mem_nodesF f n, mem_nodesTs vs n]
    constructor
    · rintro ((⟨m, hm, rfl⟩ | ⟨u, hu, m, hm, rfl⟩) | rfl)
      · exact ⟨m, .step hm .scope, rfl⟩
      · exact ⟨m, .step hm (.binder hu), rfl⟩
      · exact ⟨_, .refl, rfl⟩
    · rintro ⟨m, h, rfl⟩
      rcases occurs_iff.1 h with rfl | ⟨b, h1, hb⟩
      · exact .inr rfl
      · cases hb with
        | scope => exact .inl (.inl ⟨m, h1, rfl⟩)
        | binder hu => exact .inl (.inr ⟨_, hu, m, h1, rfl⟩)
theorem mem_nodesFs (fs : List Formula) (n : Node) : n ∈ nodesFs fs ↔ ∃ u ∈ fs, ∃ m, Occurs m (.f u) ∧ n = m.walk := by
  match fs with
  | [] => simp [nodesFs]
  | f :: fs => simp only [nodesFs, List.mem_append, mem_nodesF f n, mem_nodesFs fs n, List.mem_cons, exists_eq_or_imp]
end

theorem collectNodes_spec {p : Node → Bool} : ∀ {ns acc : List Node}, acc.Nodup →
    (collectNodes p acc ns).Nodup ∧ ∀ n, n ∈ collectNodes p acc ns ↔ n ∈ acc ∨ (n ∈ ns ∧ p n = true)
  | [], acc, h => ⟨h, fun n => by simp [collectNodes]⟩
  | m :: ns, acc, h => by
    simp only [collectNodes]
    by_cases hp : p m = true
    · rw [if_pos hp]
      obtain ⟨h1, h2⟩ := collectNodes_spec (p := p) (ns := ns) (nodup_setAdd (x := m) h)
      refine ⟨h1, fun n => ?_⟩
      rw [h2, mem_setAdd, List.mem_cons]
      grind
    · rw [if_neg hp]
      obtain ⟨h1, h2⟩ := collectNodes_spec (p := p) (ns := ns) h
      refine ⟨h1, fun n => ?_⟩
      rw [h2, List.mem_cons]
      grind

theorem mem_nodes (e n : Node) : n ∈ e.nodes ↔ ∃ m, Occurs m e ∧ n = m.walk := by
  cases e with
  | t t => exact mem_nodesT t n
  | f f => exact mem_nodesF f n

theorem isVar_walk (m : Node) : m.walk.isVar = m.isVar := by
  rcases m with t | f
  · cases t <;> rfl
  · cases f <;> rfl

theorem isApp_walk (m : Node) : m.walk.isApp = m.isApp := by
  rcases m with t | f
  · cases t <;> rfl
  · cases f <;> rfl

theorem isQuant_walk (m : Node) : m.walk.isQuant = m.isQuant := by
  rcases m with t | f
  · cases t <;> rfl
  · cases f <;> rfl

theorem uniqueNodes_empty {p : Node → Bool} (hp : ∀ m : Node, p m.walk = p m) (e : Node) :
    (uniqueNodes p e).1.length = 0 ↔ ∀ m, Occurs m e → p m = false := by
  rw [List.length_eq_zero_iff]
  simp only [uniqueNodes]
  rw [List.eq_nil_iff_forall_not_mem]
  constructor
  · intro h m hm
    by_contra hc
    exact h m.walk (((collectNodes_spec (p := p) List.nodup_nil).2 _).2 (.inr ⟨(mem_nodes e _).2 ⟨m, hm, rfl⟩, by rw [hp]; simpa using hc⟩))
  · intro h n hn
    rcases ((collectNodes_spec (p := p) List.nodup_nil).2 _).1 hn with hn | ⟨hn, hpn⟩
    · exact absurd hn List.not_mem_nil
    · obtain ⟨m, hm, rfl⟩ := (mem_nodes e n).1 hn
      rw [hp, h m hm] at hpn
      cases hpn

/-! ### C57 -/

/-- C57: `collect_unique_nodes` returns every node of the expression that passes the filter once, as it is after the call, and
nothing else. -/
theorem C57_nodes (p : Node → Bool) (e : Node) : (uniqueNodes p e).1.Nodup ∧
    ∀ n, n ∈ (uniqueNodes p e).1 ↔ p n = true ∧ ∃ m, Occurs m e ∧ n = m.walk := by
  obtain ⟨h1, h2⟩ := collectNodes_spec (p := p) (ns := e.nodes) List.nodup_nil
  refine ⟨h1, fun n => ?_⟩
  simp only [uniqueNodes, h2, mem_nodes, List.not_mem_nil, false_or]
  exact and_comm

/-- C57: `all_variables` returns exactly the variables that occur in the expression, free or bound. -/
theorem C57_all_variables (e : Node) : (allVariables e).1.Nodup ∧
    ∀ n, n ∈ (allVariables e).1 ↔ ∃ v, n = .t (.var v) ∧ Occurs (.t (.var v)) e := by
  obtain ⟨h1, h2⟩ := C57_nodes Node.isVar e
  refine ⟨h1, fun n => ?_⟩
  rw [allVariables, h2]
  constructor
  · rintro ⟨hv, m, hm, rfl⟩
    rw [isVar_walk] at hv
    rcases m with t | f
    · cases t with
      | var v => exact ⟨v, rfl, hm⟩
      | const => cases hv
      | app => cases hv
      | ite => cases hv
    · cases hv
  · rintro ⟨v, rfl, hm⟩
    exact ⟨rfl, _, hm, rfl⟩

/-- C57: `is_ground` holds iff no variable occurs. -/
theorem C57_ground (e : Node) : (isGround e).1 = true ↔ ∀ v, ¬ Occurs (.t (.var v)) e := by
  simp only [isGround]
  rw [decide_eq_true_iff, allVariables, uniqueNodes_empty isVar_walk]
  constructor
  · intro h v hv
    cases h _ hv
  · intro h m hm
    rcases m with t | f
    · cases t with
      | var v => exact absurd hm (h v)
      | const => rfl
      | app => rfl
      | ite => rfl
    · rfl

/-- C57: `is_function_free` holds iff no application of a function symbol occurs. -/
theorem C57_function_free (f : Formula) : (isFunctionFree f).1 = true ↔ ∀ g ts, ¬ Occurs (.t (.app g ts)) (.f f) := by
  simp only [isFunctionFree, decide_eq_true_eq, uniqueNodes_empty isApp_walk]
  constructor
  · intro h g ts hv
    cases h _ hv
  · intro h m hm
    rcases m with t | f
    · cases t with
      | var v => rfl
      | const => rfl
      | app g ts => exact absurd hm (h g ts)
      | ite => rfl
    · rfl

/-- C57: `is_quantifier_free` holds iff no quantified formula occurs, not even in the condition of an if-then-else term. -/
theorem C57_quantifier_free (f : Formula) : (isQuantifierFree f).1 = true ↔ ∀ q vs g, ¬ Occurs (.f (.quant q vs g)) (.f f) := by
  simp only [isQuantifierFree, decide_eq_true_eq, uniqueNodes_empty isQuant_walk]
  constructor
  · intro h q vs g hv
    cases h _ hv
  · intro h m hm
    rcases m with t | f
    · rfl
    · cases f with
      | top => rfl
      | bot => rfl
      | atom => rfl
      | comp => rfl
      | quant q vs g => exact absurd hm (h q vs g)

/-- `exists x. p(if q(y) then f(x) else x) and true` -/
def exNodes : Formula :=
  .quant .exists [.var ⟨"x", "object"⟩] (.comp .tuple .and [.atom (.user "p")
    [.ite (.atom (.user "q") [.var ⟨"y", "object"⟩]) (.app "f" [.var ⟨"x", "object"⟩]) (.var ⟨"x", "object"⟩)], .top])

example : (isQuantifierFree exNodes).1 = false ∧ (isFunctionFree exNodes).1 = false ∧ (isGround (.f exNodes)).1 = false ∧
    (allVariables (.f exNodes)).1 = [.t (.var ⟨"x", "object"⟩), .t (.var ⟨"y", "object"⟩)] ∧
    (isQuantifierFree (.comp .tuple .and [.top, .bot])).1 = true := by
  refine ⟨rfl, rfl, rfl, rfl, rfl⟩

/-! ### C58 -/

mutual
theorem walkT_eval {D} (I : Interp D) (t : Term) (σ : Asg D) : evalT I (walkT t) σ = evalT I t σ := by
  match t with
  | .var v => rfl
  | .const n s => rfl
  | .app g ts => simp only [walkT, evalT, walkTs_eval I ts σ]
  | .ite c a b => 
    have h : Sat I (walkF c) σ = Sat I c σ := propext (walkF_sat I c σ)
    simp only [walkT, evalT, walkT_eval I a σ, walkT_eval I b σ]
    by_cases hc : Sat I c σ
    · rw [if_pos hc, if_pos (h ▸ hc)]
    · rw [if_neg hc, if_neg (h ▸ hc)]
theorem walkTs_eval {D} (I : Interp D) (ts : List Term) (σ : Asg D) : evalTs I (walkTs ts) σ = evalTs I ts σ := by
  match ts with
  | [] => rfl
  | t :: ts => simp only [walkTs, evalTs, walkT_eval I t σ, walkTs_eval I ts σ]
theorem walkF_sat {D} (I : Interp D) (f : Formula) (σ : Asg D) : Sat I (walkF f) σ ↔ Sat I f σ := by
  match f with
  | .top => rfl
  | .bot => rfl
  | .atom p ts => simp only [walkF, Sat, walkTs_eval I ts σ]
  | .comp k .not fs =>
    simp only [walkF, Sat, satAll_iff]
    exact not_congr (walkFs_sat I fs σ).1
  | .comp k .and fs => simp only [walkF, Sat, satAll_iff]; exact (walkFs_sat I fs σ).1
  | .comp k .or fs => simp only [walkF, Sat, satAny_iff]; exact (walkFs_sat I fs σ).2
  | .quant q vs f =>
    simp only [walkF, Sat]
    rw [walk_binders I q vs]
    exact quantBlock_congr I q vs (fun τ => walkF_sat I f τ) σ
theorem walkFs_sat {D} (I : Interp D) (fs : List Formula) (σ : Asg D) :
    ((∀ f ∈ walkFs fs, Sat I f σ) ↔ ∀ f ∈ fs, Sat I f σ) ∧ ((∃ f ∈ walkFs fs, Sat I f σ) ↔ ∃ f ∈ fs, Sat I f σ) := by
  match fs with
  | [] => simp [walkFs]
  | f :: fs =>
    have h1 := walkF_sat I f σ
    obtain ⟨h2, h3⟩ := walkFs_sat I fs σ
    constructor
    · simp only [walkFs, List.forall_mem_cons, h1, h2]
    · simp only [walkFs, List.mem_cons, exists_eq_or_imp, h1, h3]
theorem walk_binders {D} (I : Interp D) (q : Quant) (vs : List Term) {P : Asg D → Prop} {σ : Asg D} :
    quantBlock I q (walkTs vs) P σ ↔ quantBlock I q vs P σ := by
  match vs with
  | [] => rfl
  | .var v :: vs => cases q <;> simp only [walkTs, walkT, quantBlock, walk_binders I _ vs]
  | .const n s :: vs => simp only [walkTs, walkT, quantBlock, walk_binders I q vs]
  | .app g ts :: vs => simp only [walkTs, walkT, quantBlock, walk_binders I q vs]
  | .ite c a b :: vs => simp only [walkTs, walkT, quantBlock, walk_binders I q vs]
end

mutual
theorem walkT_hash (t : Term) : termHash (walkT t) = termHash t := by
  match t with
  | .var v => rfl
  | .const n s => rfl
  | .app g ts => simp only [walkT, termHash, walkTs_hash ts]
  | .ite c a b => simp only [walkT, termHash, walkF_hash c, walkT_hash a, walkT_hash b]
theorem walkTs_hash (ts : List Term) : termsHash (walkTs ts) = termsHash ts := by
  match ts with
  | [] => rfl
  | t :: ts => simp only [walkTs, termsHash, walkT_hash t, walkTs_hash ts]
theorem walkF_hash (f : Formula) : formulaHash (walkF f) = formulaHash f := by
  match f with
  | .top => rfl
  | .bot => rfl
  | .atom p ts => simp only [walkF, formulaHash, walkTs_hash ts]
  | .comp k c fs => simp only [walkF, formulaHash, walkFs_hash fs]
  | .quant q vs f => simp only [walkF, formulaHash, walkTs_hash vs, walkF_hash f]
theorem walkFs_hash (fs : List Formula) : formulasHash (walkFs fs) = formulasHash fs := by
  match fs with
  | [] => rfl
  | f :: fs => simp only [walkFs, formulasHash, walkF_hash f, walkFs_hash fs]
end

/-- No compound formula whose subformulas are in a tuple, as `land`, `lor` and `flatten` build them, occurs. -/
def NoTuples (e : Node) : Prop := ∀ c fs, ¬ Occurs (.f (.comp .tuple c fs)) e

mutual
theorem walkT_id (t : Term) : walkT t = t ↔ NoTuples (.t t) := by
  match t with
  | .var v =>
    simp only [walkT, NoTuples, true_iff]
    intro c fs h
    rcases occurs_iff.1 h with h | ⟨b, -, hb⟩
    · cases h
    · cases hb
  | .const n s =>
    simp only [walkT, NoTuples, true_iff]
    intro c fs h
    rcases occurs_iff.1 h with h | ⟨b, -, hb⟩
    · cases h
    · cases hb
  | .app g ts =>
    simp only [walkT, Term.app.injEq, true_and, walkTs_id ts]
    constructor
    · intro h c fs hc
      rcases occurs_iff.1 hc with hc | ⟨b, h1, hb⟩
      · cases hc
      · cases hb with
        | app hu => exact h _ hu c fs h1
    · intro h u hu c fs hc
      exact h c fs (.step hc (.app hu))
  | .ite x a b =>
    simp only [walkT, Term.ite.injEq, walkF_id x, walkT_id a, walkT_id b]
    constructor
    · rintro ⟨h1, h2, h3⟩ c fs hc
      rcases occurs_iff.1 hc with hc | ⟨b, h4, hb⟩
      · cases hc
      · cases hb with
        | iteCond => exact h1 c fs h4
        | iteThen => exact h2 c fs h4
        | iteElse => exact h3 c fs h4
    · intro h
      exact ⟨fun c fs hc => h c fs (.step hc .iteCond), fun c fs hc => h c fs (.step hc .iteThen),
        fun c fs hc => h c fs (.step hc .iteElse)⟩
theorem walkTs_id (ts : List Term) : walkTs ts = ts ↔ ∀ t ∈ ts, NoTuples (.t t) := by
  match ts with
  | [] => simp [walkTs]
  | t :: ts => simp only [walkTs, List.cons.injEq, walkT_id t, walkTs_id ts, List.forall_mem_cons]
theorem walkF_id (f : Formula) : walkF f = f ↔ NoTuples (.f f) := by
  match f with
  | .top =>
    simp only [walkF, NoTuples, true_iff]
    intro c fs h
    rcases occurs_iff.1 h with h | ⟨b, -, hb⟩
    · cases h
    · cases hb
  | .bot =>
    simp only [walkF, NoTuples, true_iff]
    intro c fs h
    rcases occurs_iff.1 h with h | ⟨b, -, hb⟩
    · cases h
    · cases hb
  | .atom p ts =>
    simp only [walkF, Formula.atom.injEq, true_and, walkTs_id ts]
    constructor
    · intro h c fs hc
      rcases occurs_iff.1 hc with hc | ⟨b, h1, hb⟩
      · cases hc
      · cases hb with
        | atom hu => exact h _ hu c fs h1
    · intro h u hu c fs hc
      exact h c fs (.step hc (.atom hu))
  | .comp k x gs =>
    simp only [walkF, Formula.comp.injEq, true_and, walkFs_id gs]
    constructor
    · rintro ⟨rfl, h⟩ c fs hc
      rcases occurs_iff.1 hc with hc | ⟨b, h1, hb⟩
      · cases hc
      · cases hb with
        | comp hu => exact h _ hu c fs h1
    · intro h
      refine ⟨?_, fun u hu c fs hc => h c fs (.step hc (.comp hu))⟩
      cases k with
      | list => rfl
      | tuple => exact absurd Occurs.refl (h x gs)
  | .quant q vs g =>
    simp only [walkF, Formula.quant.injEq, true_and, walkTs_id vs, walkF_id g]
    constructor
    · rintro ⟨h1, h2⟩ c fs hc
      rcases occurs_iff.1 hc with hc | ⟨b, h3, hb⟩
      · cases hc
      · cases hb with
        | scope => exact h2 c fs h3
        | binder hu => exact h1 _ hu c fs h3
    · intro h
      exact ⟨fun u hu c fs hc => h c fs (.step hc (.binder hu)), fun c fs hc => h c fs (.step hc .scope)⟩
theorem walkFs_id (fs : List Formula) : walkFs fs = fs ↔ ∀ f ∈ fs, NoTuples (.f f) := by
  match fs with
  | [] => simp [walkFs]
  | f :: fs => simp only [walkFs, List.cons.injEq, walkF_id f, walkFs_id fs, List.forall_mem_cons]
end

/-- The full statement of C58: a formula is still equal to what it was (say, to a copy) after any of the queries. -/
def C58_full : Prop := ∀ (p : Node → Bool) (f : Formula), ∃ f', (uniqueNodes p (.f f)).2 = .f f' ∧ formulaEq f f' = true

/-- C58, proved part: after a query the formula still has its meaning and its hash, and it is still equal to what it was if
and only if no compound formula with a tuple of subformulas occurs in it. -/
theorem C58_queries_partial (p : Node → Bool) (f : Formula) :
    ∃ f', (uniqueNodes p (.f f)).2 = .f f' ∧ Equiv f' f ∧ formulaHash f' = formulaHash f ∧ (formulaEq f f' = true ↔ NoTuples (.f f)) := by
  refine ⟨walkF f, rfl, fun D I σ => walkF_sat I f σ, walkF_hash f, ?_⟩
  rw [formulaEq_iff, ← walkF_id f]
  exact eq_comm

/-- C58 fails for `p and q` as `land` builds it: after `is_quantifier_free` it is different from what it was. -/
theorem C58_refuted : ¬ C58_full := by
  intro h
  obtain ⟨f', h1, h2⟩ := h Node.isQuant (land [.atom (.user "p") [], .atom (.user "q") []])
  simp only [uniqueNodes, Node.walk, Node.f.injEq] at h1
  subst h1
  exact absurd h2 (by decide)

example : NoTuples (.f (neg (.atom (.user "p") []))) := by
  rw [← walkF_id]
  rfl

end Tarski

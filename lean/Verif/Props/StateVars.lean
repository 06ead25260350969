import Verif.Props.TermFluency
import Verif.Props.Grounding
import Verif.SubstLemmas
import Mathlib.Data.List.Forall2
/-! C69: the state variables made from the fluent terms. -/
namespace Tarski

/-! ### Specification -/

/-- The constant can stand at the position of the argument: it is the argument, or the argument is a variable and the constant
belongs to the domain of its sort. -/
def FillsArg (dom : String → Except Err (List Const)) (c : Const) (t : Term) : Prop :=
  t = .const c.name c.sort ∨ ∃ v d, t = .var v ∧ dom v.sort = .ok d ∧ c ∈ d

/-- The state variable fills the positions of the term one by one. -/
def FillsTerm (dom : String → Except Err (List Const)) (r : TRef) (k : SVHead × List Const) : Prop :=
  k.1 = r.head ∧ List.Forall₂ (FillsArg dom) k.2 r.args

/-- The constant that an argument becomes when variables are replaced. -/
def instArg (θ : Var → Const) : Term → Option Const
  | .var v => some (θ v)
  | .const n so => some ⟨n, so⟩
  | _ => none

/-- The state variable is a ground instance of the term: all occurrences of a variable are replaced by one constant of its
sort. -/
def GroundOf (dom : String → Except Err (List Const)) (r : TRef) (k : SVHead × List Const) : Prop :=
  k.1 = r.head ∧ ∃ θ : Var → Const, (∀ v, .var v ∈ r.args → ∃ d, dom v.sort = .ok d ∧ θ v ∈ d) ∧
    r.args.map (instArg θ) = k.2.map some

/-- The arguments can be enumerated: constants, and variables of sorts that are not builtin and have a finite domain. -/
def Enumerable (builtin : String → Bool) (dom : String → Except Err (List Const)) (r : TRef) : Prop :=
  ∀ t ∈ r.args, (∃ n so, t = .const n so) ∨ ∃ v d, t = .var v ∧ builtin v.sort = false ∧ dom v.sort = .ok d

/-- No variable occurs twice. -/
def TRef.Linear (r : TRef) : Prop := (r.args.filter (fun t => match t with | .var _ => true | _ => false)).Nodup

/-! ### Proofs -/

theorem indexesExactly_addAll {β} [DecidableEq β] (xs : List β) : IndexesExactly ((SymIndex.empty : SymIndex β).addAll xs) (· ∈ xs) := by
  have key := fun o i => C23_index_bijection xs o i
  simp only at key
  refine ⟨fun x => ?_, fun x i => by rw [(key x i).1, (key x i).2.1], fun i => ?_⟩
  · constructor
    · rintro ⟨i, hi⟩
      by_contra hx
      rw [(key x i).2.2.1.2 hx] at hi
      cases hi
    · intro hx
      have : x ∈ firstOccurrences xs := by
        by_contra hn
        cases hg : ((SymIndex.empty : SymIndex β).addAll xs).getIndex x with
        | ok i => exact hn (List.mem_of_getElem? ((key x i).1.1 hg))
        | error e =>
          have : e = .keyError := by
            unfold SymIndex.getIndex at hg
            split at hg <;> cases hg
            rfl
          subst this
          exact (key x 0).2.2.1.1 hg hx
      obtain ⟨i, hi⟩ := List.getElem?_of_mem this
      exact ⟨i, (key x i).1.2 hi⟩
  · constructor
    · rintro ⟨x, hx⟩
      rw [(key x i).2.1] at hx
      rw [(key x i).2.2.2]
      exact (List.getElem?_eq_some_iff.mp hx).1
    · intro hi
      cases xs with
      | nil => simp [SymIndex.addAll, SymIndex.empty, SymIndex.len] at hi
      | cons x0 xs =>
        rw [(key x0 i).2.2.2] at hi
        exact ⟨_, (key _ i).2.1.mpr (List.getElem?_eq_getElem hi)⟩

theorem addStateVars_eq (r : TRef) (is : List (List Const)) (s : SymIndex (SVHead × List Const)) :
    addStateVars r is s = s.addAll (is.map fun i => (r.head, i)) := by
  induction is generalizing s with
  | nil => rfl
  | cons i is ih => simp only [addStateVars, ih, SymIndex.addAll, List.map_cons, List.foldl_cons, StateVar.key]

theorem svDomains_spec (builtin : String → Bool) (dom : String → Except Err (List Const)) : ∀ (ts : List Term) (ds : List (List Const)),
    svDomains builtin dom ts = .ok ds →
    (∀ t ∈ ts, (∃ n so, t = .const n so) ∨ ∃ v d, t = .var v ∧ builtin v.sort = false ∧ dom v.sort = .ok d) ∧
    List.Forall₂ (fun t l => ∀ c, c ∈ l ↔ FillsArg dom c t) ts ds
  | [], ds, h => by
    simp only [svDomains, Except.ok.injEq] at h
    subst h
    exact ⟨by simp, .nil⟩
  | .const n so :: ts, ds, h => by
    simp only [svDomains] at h
    cases hd : svDomains builtin dom ts with
    | error e => simp [hd] at h
    | ok ds' =>
      simp only [hd, Except.ok.injEq] at h
      subst h
      obtain ⟨h1, h2⟩ := svDomains_spec builtin dom ts ds' hd
      refine ⟨fun t ht => ?_, .cons (fun c => ?_) h2⟩
      · rcases List.mem_cons.1 ht with rfl | ht
        · exact .inl ⟨_, _, rfl⟩
        · exact h1 t ht
      · obtain ⟨cn, cs⟩ := c
        simp [FillsArg, eq_comm]
  | .var v :: ts, ds, h => by
    simp only [svDomains] at h
    split at h
    · cases h
    · rename_i hb
      cases hv : dom v.sort with
      | error e => simp [hv] at h
      | ok d =>
        cases hd : svDomains builtin dom ts with
        | error e => simp [hv, hd] at h
        | ok ds' =>
          simp only [hv, hd, Except.ok.injEq] at h
          subst h
          obtain ⟨h1, h2⟩ := svDomains_spec builtin dom ts ds' hd
          refine ⟨fun t ht => ?_, .cons (fun c => ?_) h2⟩
          · rcases List.mem_cons.1 ht with rfl | ht
            · exact .inr ⟨v, d, rfl, by simpa using hb, hv⟩
            · exact h1 t ht
          · simp [FillsArg, hv]
  | .app f us :: ts, ds, h => by simp [svDomains] at h
  | .ite c a b :: ts, ds, h => by simp [svDomains] at h

theorem svDomains_returns (builtin : String → Bool) (dom : String → Except Err (List Const)) : ∀ (ts : List Term),
    (∀ t ∈ ts, (∃ n so, t = .const n so) ∨ ∃ v d, t = .var v ∧ builtin v.sort = false ∧ dom v.sort = .ok d) →
    ∃ ds, svDomains builtin dom ts = .ok ds
  | [], _ => ⟨[], rfl⟩
  | t :: ts, h => by
    obtain ⟨ds, hd⟩ := svDomains_returns builtin dom ts fun u hu => h u (by simp [hu])
    rcases h t (by simp) with ⟨n, so, rfl⟩ | ⟨v, d, rfl, hb, hv⟩
    · exact ⟨_, by simp only [svDomains, hd]; rfl⟩
    · exact ⟨_, by simp only [svDomains, hb, hv, hd]; rfl⟩

theorem svDomains_error (builtin : String → Bool) (dom : String → Except Err (List Const))
    (hdom : ∀ s, builtin s = false → ∃ d, dom s = .ok d) : ∀ (ts : List Term) (e : Err), svDomains builtin dom ts = .error e → e = .unableToGround
  | [], e, h => by simp [svDomains] at h
  | .const n so :: ts, e, h => by
    simp only [svDomains] at h
    cases hd : svDomains builtin dom ts with
    | error e' => simp only [hd, Except.error.injEq] at h; subst h; exact svDomains_error builtin dom hdom ts _ hd
    | ok ds' => simp [hd] at h
  | .var v :: ts, e, h => by
    simp only [svDomains] at h
    split at h
    · cases h; rfl
    · rename_i hb
      obtain ⟨d, hv⟩ := hdom v.sort (by simpa using hb)
      cases hd : svDomains builtin dom ts with
      | error e' => simp only [hv, hd, Except.error.injEq] at h; subst h; exact svDomains_error builtin dom hdom ts _ hd
      | ok ds' => simp [hv, hd] at h
  | .app f us :: ts, e, h => by simp only [svDomains, Except.error.injEq] at h; exact h.symm
  | .ite c a b :: ts, e, h => by simp only [svDomains, Except.error.injEq] at h; exact h.symm

theorem allStateVariables_eq (builtin : String → Bool) (dom : String → Except Err (List Const)) (rs : List TRef)
    (s idx : SymIndex (SVHead × List Const)) (h : allStateVariables builtin dom rs s = .ok idx) :
    (∀ r ∈ rs, Enumerable builtin dom r) ∧ ∃ xs, idx = s.addAll xs ∧ ∀ k, k ∈ xs ↔ ∃ r ∈ rs, FillsTerm dom r k := by
  induction rs generalizing s with
  | nil =>
    simp only [allStateVariables, Except.ok.injEq] at h
    exact ⟨by simp, [], h.symm, by simp⟩
  | cons r rs ih =>
    simp only [allStateVariables] at h
    cases hd : svDomains builtin dom r.args with
    | error e => simp [hd] at h
    | ok ds =>
      simp only [hd, addStateVars_eq] at h
      obtain ⟨h1, xs, h2, h3⟩ := ih _ h
      obtain ⟨e1, e2⟩ := svDomains_spec builtin dom _ _ hd
      refine ⟨fun r' hr' => ?_, (cart ds).map (fun i => (r.head, i)) ++ xs, ?_, fun k => ?_⟩
      · rcases List.mem_cons.1 hr' with rfl | hr'
        · exact e1
        · exact h1 r' hr'
      · rw [h2]; simp only [SymIndex.addAll, List.foldl_append]
      · simp only [List.mem_append, List.mem_map, h3, List.mem_cons, exists_eq_or_imp]
        refine or_congr ?_ Iff.rfl
        obtain ⟨kh, ki⟩ := k
        have hm : ki ∈ cart ds ↔ List.Forall₂ (FillsArg dom) ki r.args := by
          rw [mem_cart, List.forall₂_iff_get, List.forall₂_iff_get]
          have hl := e2.length_eq
          constructor
          · rintro ⟨a1, a2⟩
            refine ⟨by omega, fun i hi1 hi2 => ?_⟩
            exact ((List.forall₂_iff_get.1 e2).2 i hi2 (by omega) _).1 (a2 i hi1 (by omega))
          · rintro ⟨a1, a2⟩
            refine ⟨by omega, fun i hi1 hi2 => ?_⟩
            exact ((List.forall₂_iff_get.1 e2).2 i (by omega) hi2 _).2 (a2 i hi1 (by omega))
        simp only [Prod.mk.injEq, FillsTerm, ← hm]
        constructor
        · rintro ⟨i, hi, rfl, rfl⟩; exact ⟨rfl, hi⟩
        · rintro ⟨rfl, hi⟩; exact ⟨ki, hi, rfl, rfl⟩

/-! ### C69 -/

/-- C69: the state variables can be enumerated exactly when all arguments can. -/
theorem C69_returns (builtin : String → Bool) (dom : String → Except Err (List Const)) (rs : List TRef) :
    (∃ idx, allStateVariables builtin dom rs SymIndex.empty = .ok idx) ↔ ∀ r ∈ rs, Enumerable builtin dom r := by
  constructor
  · rintro ⟨idx, h⟩
    exact (allStateVariables_eq builtin dom rs _ idx h).1
  · generalize (SymIndex.empty : SymIndex (SVHead × List Const)) = s
    induction rs generalizing s with
    | nil => exact fun _ => ⟨s, rfl⟩
    | cons r rs ih =>
      intro h
      obtain ⟨ds, hd⟩ := svDomains_returns builtin dom r.args (h r (by simp))
      simp only [allStateVariables, hd]
      exact ih _ fun r' hr' => h r' (by simp [hr'])

/-- C69: otherwise `UnableToGroundError` is raised, provided that all sorts that are not builtin have a domain. -/
theorem C69_raises (builtin : String → Bool) (dom : String → Except Err (List Const)) (rs : List TRef)
    (hdom : ∀ s, builtin s = false → ∃ d, dom s = .ok d) (h : ∃ r ∈ rs, ¬ Enumerable builtin dom r) :
    allStateVariables builtin dom rs SymIndex.empty = .error .unableToGround := by
  generalize (SymIndex.empty : SymIndex (SVHead × List Const)) = s
  induction rs generalizing s with
  | nil => simp at h
  | cons r rs ih =>
    simp only [allStateVariables]
    cases hd : svDomains builtin dom r.args with
    | error e => simp only [svDomains_error builtin dom hdom _ _ hd]
    | ok ds =>
      simp only
      refine ih ?_ _
      obtain ⟨r', hr', hn⟩ := h
      rcases List.mem_cons.1 hr' with rfl | hr'
      · exact absurd (svDomains_spec builtin dom _ _ hd).1 hn
      · exact ⟨r', hr', hn⟩

/-- The full statement: the index holds exactly the ground instances of the terms. -/
def C69_full : Prop := ∀ (builtin : String → Bool) (dom : String → Except Err (List Const)) (rs : List TRef) idx,
  allStateVariables builtin dom rs SymIndex.empty = .ok idx → IndexesExactly idx (fun k => ∃ r ∈ rs, GroundOf dom r k)

/-- C69, for all terms: positions are filled independently of each other. -/
theorem C69_positions (builtin : String → Bool) (dom : String → Except Err (List Const)) (rs : List TRef) (idx)
    (h : allStateVariables builtin dom rs SymIndex.empty = .ok idx) : IndexesExactly idx (fun k => ∃ r ∈ rs, FillsTerm dom r k) := by
  obtain ⟨-, xs, rfl, h2⟩ := allStateVariables_eq builtin dom rs _ idx h
  have := indexesExactly_addAll xs
  simp only [h2] at this
  exact this

theorem groundOf_fills {dom : String → Except Err (List Const)} {r : TRef} {k : SVHead × List Const} (h : GroundOf dom r k) :
    FillsTerm dom r k := by
  obtain ⟨h1, θ, h2, h3⟩ := h
  refine ⟨h1, List.forall₂_iff_get.2 ⟨?_, fun i hi1 hi2 => ?_⟩⟩
  · have := congrArg List.length h3
    simpa using this.symm
  · have e : (r.args.map (instArg θ))[i]? = (k.2.map some)[i]? := by rw [h3]
    simp only [List.getElem?_map, List.getElem?_eq_getElem hi1, List.getElem?_eq_getElem hi2, Option.map_some, Option.some.injEq] at e
    simp only [List.get_eq_getElem]
    have hm : r.args[i] ∈ r.args := List.getElem_mem hi2
    generalize r.args[i] = t at e hm
    cases t with
    | var v =>
      simp only [instArg, Option.some.injEq] at e
      obtain ⟨d, hd, hd'⟩ := h2 v hm
      exact .inr ⟨v, d, rfl, hd, e ▸ hd'⟩
    | const n so =>
      simp only [instArg, Option.some.injEq] at e
      exact .inl (by rw [← e])
    | app f ts => simp [instArg] at e
    | ite c a b => simp [instArg] at e

theorem fills_assignment {dom : String → Except Err (List Const)} : ∀ {cs : List Const} {ts : List Term},
    List.Forall₂ (FillsArg dom) cs ts → (ts.filter (fun t => match t with | .var _ => true | _ => false)).Nodup →
    ∃ θ : Var → Const, (∀ v, .var v ∈ ts → ∃ d, dom v.sort = .ok d ∧ θ v ∈ d) ∧ ts.map (instArg θ) = cs.map some
  | _, _, .nil, _ => ⟨fun _ => ⟨.str "", ""⟩, by simp, rfl⟩
  | c :: cs, t :: ts, .cons h1 h2, hn => by
    obtain ⟨θ, e1, e2⟩ := fills_assignment h2 (by
      rw [List.filter_cons] at hn
      split at hn
      · exact (List.nodup_cons.1 hn).2
      · exact hn)
    rcases h1 with rfl | ⟨v, d, rfl, hd, hc⟩
    · refine ⟨θ, fun v hv => e1 v ?_, by simp only [List.map_cons, e2, instArg]⟩
      simpa using hv
    · have hv : .var v ∉ ts := by
        rw [List.filter_cons, if_pos rfl] at hn
        intro hm
        exact (List.nodup_cons.1 hn).1 (List.mem_filter.2 ⟨hm, rfl⟩)
      refine ⟨fun w => if w = v then c else θ w, fun w hw => ?_, ?_⟩
      · by_cases hwv : w = v
        · subst hwv
          exact ⟨d, hd, by simpa using hc⟩
        · simp only [hwv, if_false]
          refine e1 w ?_
          simpa [hwv] using hw
      · simp only [List.map_cons, instArg, if_true, List.cons.injEq, true_and, ← e2]
        refine List.map_congr_left fun u hu => ?_
        cases u with
        | var w =>
          have : w ≠ v := fun e => hv (e ▸ hu)
          simp [instArg, this]
        | _ => rfl

/-- C69, proved part: for terms in which no variable occurs twice. -/
theorem C69_index_partial (builtin : String → Bool) (dom : String → Except Err (List Const)) (rs : List TRef) (idx)
    (h : allStateVariables builtin dom rs SymIndex.empty = .ok idx) (hl : ∀ r ∈ rs, r.Linear) :
    IndexesExactly idx (fun k => ∃ r ∈ rs, GroundOf dom r k) := by
  have e : (fun k => ∃ r ∈ rs, GroundOf dom r k) = fun k => ∃ r ∈ rs, FillsTerm dom r k := by
    funext k
    refine propext ⟨fun ⟨r, hr, hk⟩ => ⟨r, hr, groundOf_fills hk⟩, fun ⟨r, hr, hk⟩ => ⟨r, hr, hk.1, fills_assignment hk.2 (hl r hr)⟩⟩
  rw [e]
  exact C69_positions builtin dom rs idx h

/-- Two objects. -/
def svDom (_ : String) : Except Err (List Const) := .ok [⟨.str "a", "o"⟩, ⟨.str "b", "o"⟩]

/-- `p(x, x)` gives the state variable `p(a, b)`. -/
theorem C69_refuted : ¬ C69_full := by
  intro h
  obtain ⟨h1, -⟩ := h (fun _ => false) svDom [.atom (.user "p") [.var ⟨"x", "o"⟩, .var ⟨"x", "o"⟩]] _ rfl
  obtain ⟨r, hr, -, θ, -, e⟩ := (h1 (.pred (.user "p"), [⟨.str "a", "o"⟩, ⟨.str "b", "o"⟩])).1 ⟨1, rfl⟩
  simp only [List.mem_singleton] at hr
  subst hr
  simp only [TRef.args, List.map_cons, instArg, List.cons.injEq, Option.some.injEq] at e
  rw [e.1] at e
  simp at e

/-- The term with the given arguments. -/
def TRef.withArgs : TRef → List Term → TRef
  | .atom p _, ts => .atom p ts
  | .term f _, ts => .term f ts

/-- The full statement: the ground term of a state variable made from a term is the symbol of the term applied to the
constants. -/
def C69_ground_full : Prop := ∀ (dom : String → Except Err (List Const)) (v : StateVar), FillsTerm dom v.ref v.key →
  v.ground = v.ref.withArgs (v.inst.map fun c => .const c.name c.sort)

/-- C69, proved part for `ground`: for terms in which no variable occurs twice. -/
theorem C69_ground_partial (dom : String → Except Err (List Const)) (v : StateVar) (h : FillsTerm dom v.ref v.key) (hl : v.ref.Linear) :
    v.ground = v.ref.withArgs (v.inst.map fun c => .const c.name c.sort) := by
  obtain ⟨r, cs⟩ := v
  obtain ⟨-, h⟩ := h
  simp only [StateVar.key] at h
  obtain ⟨θ, -, e⟩ := fills_assignment h hl
  have key : subTs (createSubst r.args (cs.map fun c => Term.const c.name c.sort)) r.args = cs.map fun c => Term.const c.name c.sort := by
    have hv : ∀ (t u : Term), (t, u) ∈ createSubst r.args (cs.map fun c => Term.const c.name c.sort) →
        (instArg θ t).map (fun c => Term.const c.name c.sort) = some u := by
      intro t u hm
      obtain ⟨i, hi, hm⟩ := List.getElem_of_mem hm
      simp only [createSubst, List.length_zip, List.length_map] at hi
      simp only [createSubst, List.getElem_zip, List.getElem_map, Prod.mk.injEq] at hm
      have e' : (r.args.map (instArg θ))[i]? = (cs.map some)[i]? := by rw [e]
      simp only [List.getElem?_map, List.getElem?_eq_getElem (show i < r.args.length by omega),
        List.getElem?_eq_getElem (show i < cs.length by omega), Option.map_some, Option.some.injEq] at e'
      rw [← hm.1, e', ← hm.2]
      rfl
    have hsub : ∀ ts : List Term, (∀ t ∈ ts, t ∈ r.args) → ∀ ds : List Const, ts.map (instArg θ) = ds.map some →
        subTs (createSubst r.args (cs.map fun c => Term.const c.name c.sort)) ts = ds.map fun c => Term.const c.name c.sort := by
      intro ts
      induction ts with
      | nil => intro _ ds hd; cases ds with
        | nil => rfl
        | cons _ _ => simp at hd
      | cons t ts ih =>
        intro hm ds hd
        cases ds with
        | nil => simp at hd
        | cons d ds =>
          simp only [List.map_cons, List.cons.injEq] at hd
          have hfind : ∃ u, Subst.get? (createSubst r.args (cs.map fun c => Term.const c.name c.sort)) t = some u ∧
              (t, u) ∈ createSubst r.args (cs.map fun c => Term.const c.name c.sort) := by
            cases hg : Subst.get? (createSubst r.args (cs.map fun c => Term.const c.name c.sort)) t with
            | none =>
              rw [get?_eq_none] at hg
              obtain ⟨i, hi, hti⟩ := List.getElem_of_mem (hm t (by simp))
              have hlen : r.args.length = cs.length := by
                have := congrArg List.length e
                simpa using this
              have hz : (r.args.zip (cs.map fun c => Term.const c.name c.sort))[i]'(by simp; omega) ∈
                  r.args.zip (cs.map fun c => Term.const c.name c.sort) := List.getElem_mem _
              exact absurd (by simp [List.getElem_zip, hti]) (hg _ hz)
            | some u => exact ⟨u, rfl, get?_eq_some hg⟩
          obtain ⟨u, hu, hu'⟩ := hfind
          have := hv t u hu'
          rw [hd.1] at this
          simp only [Option.map_some, Option.some.injEq] at this
          have ht : subT (createSubst r.args (cs.map fun c => Term.const c.name c.sort)) t = u := by
            cases t with
            | var w => simp only [subT, Subst.visit, hu, Option.getD_some]
            | const n so => simp only [subT, Subst.visit, hu, Option.getD_some]
            | app f us => simp [instArg] at hd
            | ite c a b => simp [instArg] at hd
          simp only [subTs, ht, List.map_cons, this, ih (fun t ht => hm t (by simp [ht])) ds hd.2]
    exact hsub r.args (fun _ h => h) cs e
  cases r with
  | atom p ts => simp only [StateVar.ground, TRef.withArgs]; simp only [TRef.args] at key ⊢; rw [key]
  | term f ts => simp only [StateVar.ground, TRef.withArgs]; simp only [TRef.args] at key ⊢; rw [key]

/-- For `p(x, x)` filled with `a` and `b`, the ground term is `p(b, b)`. -/
theorem C69_ground_refuted : ¬ C69_ground_full := by
  intro h
  have := h svDom ⟨.atom (.user "p") [.var ⟨"x", "o"⟩, .var ⟨"x", "o"⟩], [⟨.str "a", "o"⟩, ⟨.str "b", "o"⟩]⟩
    ⟨rfl, .cons (.inr ⟨_, _, rfl, rfl, .head _⟩) (.cons (.inr ⟨_, _, rfl, rfl, .tail _ (.head _)⟩) .nil)⟩
  exact absurd this (by decide)

/-- Every element of a sort is named by a constant of its domain. -/
def NamedSorts {D : Type} (I : Interp D) (dom : String → Except Err (List Const)) : Prop :=
  ∀ s d, dom s = .ok d → ∀ x, I.sort s x → ∃ c ∈ d, x = I.const c.name c.sort

/-- C69, completeness: whatever an instance of an action alters, with its variables ranging over their sorts, is the value of
some state variable made from the fluent terms. (For effects that are not universal, see C68.) -/
theorem C69_complete_partial (p : GProblem) (n : Nat) (fl st : List TRef) (hp : processSymbols p n = some (.ok (fl, st)))
    (builtin : String → Bool) (dom : String → Except Err (List Const)) (idx)
    (hidx : allStateVariables builtin dom fl SymIndex.empty = .ok idx)
    (D : Type) (I : Interp D) (hI : NamedSorts I dom) (a : PAction) (ha : a ∈ p.actions) (e : Effect) (he : e ∈ a.effs)
    (hu : ∀ c vs es, e ≠ .univ c vs es) (σ : Asg D) (hσ : ∀ x, EffHead x e → ∀ v, .var v ∈ x.args → I.sort v.sort (σ v)) (h : SVHead) (ds : List D) (hh : h.user)
    (hal : Alters I e σ h ds) :
    ∃ cs i, idx.getIndex (h, cs) = .ok i ∧ ds = cs.map fun c => I.const c.name c.sort := by
  have key : ∀ x, EffHead x e → x ∈ fl := fun x hx => ((C68_exact p n fl st hp).2.1 x).2 (.effect ha he hx)
  obtain ⟨hen, -⟩ := allStateVariables_eq builtin dom fl _ idx hidx
  have main : ∀ x : TRef, EffHead x e → ∃ cs i, idx.getIndex (x.head, cs) = .ok i ∧ evalTs I x.args σ = cs.map fun c => I.const c.name c.sort := by
    intro x hx'
    have hx := key x hx'
    have : ∀ ts : List Term, (∀ t ∈ ts, t ∈ x.args) → (∀ t ∈ ts, (∃ n so, t = .const n so) ∨ ∃ v d, t = .var v ∧ builtin v.sort = false ∧ dom v.sort = .ok d) →
        ∃ cs : List Const, List.Forall₂ (FillsArg dom) cs ts ∧ evalTs I ts σ = cs.map fun c => I.const c.name c.sort := by
      intro ts
      induction ts with
      | nil => exact fun _ _ => ⟨[], .nil, rfl⟩
      | cons t ts ih =>
        intro hin ht
        obtain ⟨cs, h1, h2⟩ := ih (fun u hu => hin u (by simp [hu])) fun u hu => ht u (by simp [hu])
        rcases ht t (by simp) with ⟨n, so, rfl⟩ | ⟨v, d, rfl, -, hv⟩
        · exact ⟨⟨n, so⟩ :: cs, .cons (.inl rfl) h1, by simp only [evalTs, evalT, h2, List.map_cons]⟩
        · obtain ⟨c, hc, e⟩ := hI _ _ hv _ (hσ x hx' v (hin _ (by simp)))
          exact ⟨c :: cs, .cons (.inr ⟨v, d, rfl, hv, hc⟩) h1, by simp only [evalTs, evalT, h2, List.map_cons, e]⟩
    obtain ⟨cs, h1, h2⟩ := this x.args (fun _ h => h) (hen x hx)
    obtain ⟨i, hi⟩ := ((C69_positions builtin dom fl idx hidx).1 (x.head, cs)).2 ⟨x, hx, rfl, h1⟩
    exact ⟨cs, i, hi, h2⟩
  cases e with
  | add c q ts =>
    simp only [Alters] at hal
    obtain ⟨-, rfl, rfl⟩ := hal
    exact main (.atom q ts) (.inl ⟨hh, rfl⟩)
  | del c q ts =>
    simp only [Alters] at hal
    obtain ⟨-, rfl, rfl⟩ := hal
    exact main (.atom q ts) (.inl ⟨hh, rfl⟩)
  | lit c l =>
    simp only [Alters] at hal
    obtain ⟨-, q, ts, hl, rfl, rfl⟩ := hal
    refine main (.atom q ts) ?_
    rcases hl with rfl | ⟨k, rfl⟩
    · simp only [EffHead, HeadF]; exact .inl ⟨hh, rfl⟩
    · simp only [EffHead, HeadF, HeadFs]; exact .inl (.inl ⟨hh, rfl⟩)
  | assign c f ts r =>
    simp only [Alters] at hal
    obtain ⟨-, rfl, rfl⟩ := hal
    refine main (.term f ts) ?_
    simp only [EffHead, HeadT]
    exact .inl ⟨hh, trivial⟩
  | univ c vs es => exact absurd rfl (hu c vs es)

/-- Non-vacuity: `at(x, a)` with two objects. -/
def exSv : TRef := .atom (.user "at") [.var ⟨"x", "o"⟩, .const (.str "a") "o"]

example : Enumerable (fun _ => false) svDom exSv ∧ exSv.Linear ∧
    (∃ idx, allStateVariables (fun _ => false) svDom [exSv, exSv] SymIndex.empty = .ok idx ∧ idx.len = 2 ∧
      idx.getIndex (.pred (.user "at"), [⟨.str "b", "o"⟩, ⟨.str "a", "o"⟩]) = .ok 1) := by
  refine ⟨?_, by simp [exSv, TRef.Linear, TRef.args], _, rfl, rfl, rfl⟩
  intro t ht
  simp only [exSv, TRef.args, List.mem_cons, List.not_mem_nil, or_false] at ht
  rcases ht with rfl | rfl
  · exact .inr ⟨_, _, rfl, rfl, rfl⟩
  · exact .inl ⟨_, _, rfl⟩

example : FillsTerm svDom exSv (StateVar.key ⟨exSv, [⟨.str "b", "o"⟩, ⟨.str "a", "o"⟩]⟩) :=
  ⟨rfl, .cons (.inr ⟨_, _, rfl, rfl, .tail _ (.head _)⟩) (.cons (.inl rfl) .nil)⟩

example : ¬ Enumerable (fun _ => false) svDom (.atom (.user "at") [.app "loc" []]) := by
  simp [Enumerable, TRef.args]

example : NamedSorts (D := Bool) ⟨fun n _ => n == .str "a", fun _ _ => true, fun _ _ => True, fun _ _ => True⟩ svDom := by
  rintro s d hd x -
  cases hd
  cases x
  · exact ⟨⟨.str "b", "o"⟩, .tail _ (.head _), by decide⟩
  · exact ⟨⟨.str "a", "o"⟩, .head _, by decide⟩

end Tarski

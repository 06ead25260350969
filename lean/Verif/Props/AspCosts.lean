import Mathlib.Tactic.Common
import Mathlib.Data.List.Nodup
import Mathlib.Data.List.Dedup
import Mathlib.Data.List.Perm.Subperm
import Mathlib.Data.List.Range
import Verif.AspCosts
import Verif.ReachComplete
import Verif.PddlReadLemmas
/-! C106: action costs in the reachability logic program. -/
namespace Tarski

/-! ### Specification -/

/-- An instance of the head of a cost rule. -/
def CostArg.inst (θ : String → String) : CostArg → String
  | .num n => toString n
  | .var x => lpInst θ x

/-- `cost(action_n(args), v)` follows from the cost rules, when `M` are the other true ground atoms. -/
def CostDer (R : CmpRel) (M : LPSym → List String → Prop) (rules : List CostRule) (n : String) (args : List String) (v : String) : Prop :=
  ∃ r ∈ rules, ∃ θ, r.action = n ∧ r.args.map (lpInst θ) = args ∧ r.value.inst θ = v ∧ ∀ l ∈ r.body, LitTrue R M θ l

/-- The value of a term without function symbols, under an assignment to the parameters. -/
def argValue (σ : Asg String) : Term → String
  | .var v => σ v
  | .const n _ => nameText n
  | _ => ""

/-- What an instance of an action costs: one, if nothing is said; the constant; or the value of the cost function. -/
def Costs (M : LPSym → List String → Prop) (σ : Asg String) (v : String) : ActionCost → Prop
  | .none => v = "1"
  | .const q => ∃ n : Int, q = n ∧ v = toString n
  | .app f ts => M (.atom f) (ts.map (argValue σ) ++ [v])
  | .otherTerm => False
  | .unknown => False

/-- The costs the compiler can print: not the fractional ones, see below. -/
def WholeCost : ActionCost → Prop
  | .const q => ∃ n : Int, q = n
  | _ => True

/-! ### Names of variables -/

theorem natText_injective {i j : Nat} (h : toString i = toString j) : i = j := by
  have h1 : Nat.toDigits 10 i = Nat.toDigits 10 j := by
    have := congrArg String.toList h
    simpa [toString, Nat.repr] using this
  have := congrArg digitsVal h1
  rw [digitsVal_toDigits, digitsVal_toDigits] at this
  exact Int.ofNat.inj this

theorem aspVar_small {i : Nat} (h : i < 26) : varLetters[i]? = some (aspVar i) := by
  have : i < varLetters.length := h
  simp [aspVar, List.getElem?_eq_getElem this]

theorem aspVar_large {i : Nat} (h : 26 ≤ i) : aspVar i = "X" ++ toString i := by
  have : varLetters[i]? = none := List.getElem?_eq_none_iff.2 h
  simp [aspVar, this]

theorem letters_single : ∀ x ∈ varLetters, x.toList.length = 1 := by decide

theorem large_length (i : Nat) : 1 < ("X" ++ toString i).toList.length := by
  have h : 0 < (Nat.toDigits 10 i).length := Nat.length_toDigits_pos
  simp only [String.toList_append, List.length_append]
  have : (toString i).toList = Nat.toDigits 10 i := by simp [toString, Nat.repr]
  rw [this]
  simp only [show "X".toList.length = 1 from rfl]
  omega

/-- C106, `_var` gives a distinct name for each number. -/
theorem C106_var_injective (i j : Nat) (h : aspVar i = aspVar j) : i = j := by
  rcases Nat.lt_or_ge i 26 with hi | hi <;> rcases Nat.lt_or_ge j 26 with hj | hj
  · have h1 := aspVar_small hi
    have h2 := aspVar_small hj
    rw [h, ← h2] at h1
    exact (List.getElem?_inj (by exact hi) (by decide)).1 h1
  · have h1 := letters_single _ (List.mem_of_getElem? (aspVar_small hi))
    rw [h, aspVar_large hj] at h1
    have := large_length j
    omega
  · have h1 := letters_single _ (List.mem_of_getElem? (aspVar_small hj))
    rw [← h, aspVar_large hi] at h1
    have := large_length i
    omega
  · rw [aspVar_large hi, aspVar_large hj] at h
    have := congrArg String.toList h
    simp only [String.toList_append, List.append_cancel_left_eq] at this
    exact natText_injective (String.toList_injective this)

/-- … and the solver reads each of them as a variable. -/
theorem C106_var_is_variable (i : Nat) : isAspVar (aspVar i) = true := by
  rcases Nat.lt_or_ge i 26 with hi | hi
  · exact (by decide : ∀ x ∈ varLetters, isAspVar x = true) _ (List.mem_of_getElem? (aspVar_small hi))
  · rw [aspVar_large hi]
    simp only [isAspVar, String.toList_append]
    rfl

theorem freshVarFrom_spec (avoid : List String) : ∀ fuel i, (∀ v, freshVarFrom avoid i fuel = .ok v → ∃ j, v = aspVar j ∧ i ≤ j ∧
    j < i + fuel ∧ aspVar j ∉ avoid ∧ ∀ k, i ≤ k → k < j → aspVar k ∈ avoid) ∧
    (∀ e, freshVarFrom avoid i fuel = .error e → e = .runtime ∧ ∀ k, i ≤ k → k < i + fuel → aspVar k ∈ avoid)
  | 0, i => by
    refine ⟨fun v h => (by cases h), fun e h => ?_⟩
    simp only [freshVarFrom, Except.error.injEq] at h
    exact ⟨h.symm, fun k h1 h2 => by omega⟩
  | fuel + 1, i => by
    obtain ⟨ih1, ih2⟩ := freshVarFrom_spec avoid fuel (i + 1)
    simp only [freshVarFrom]
    split
    · rename_i hc
      have hc : aspVar i ∈ avoid := by simpa using hc
      refine ⟨fun v h => ?_, fun e h => ?_⟩
      · obtain ⟨j, e, h1, h2, h3, h4⟩ := ih1 v h
        refine ⟨j, e, by omega, by omega, h3, fun k k1 k2 => ?_⟩
        rcases Nat.eq_or_lt_of_le k1 with rfl | k3
        · exact hc
        · exact h4 k k3 k2
      · obtain ⟨h1, h2⟩ := ih2 e h
        refine ⟨h1, fun k k1 k2 => ?_⟩
        rcases Nat.eq_or_lt_of_le k1 with rfl | k3
        · exact hc
        · exact h2 k k3 (by omega)
    · rename_i hc
      have hc : aspVar i ∉ avoid := by simpa using hc
      refine ⟨fun v h => ?_, fun e h => by cases h⟩
      simp only [Except.ok.injEq] at h
      exact ⟨i, h.symm, by omega, by omega, hc, fun k _ _ => by omega⟩

/-- C106, the name that is invented is not one to be avoided, and is a variable. -/
theorem C106_fresh (avoid : List String) (v : String) (h : generateVarname avoid = .ok v) : v ∉ avoid ∧ isAspVar v = true := by
  obtain ⟨j, rfl, -, -, h2, -⟩ := (freshVarFrom_spec avoid 1000 0).1 v h
  exact ⟨h2, C106_var_is_variable j⟩

/-- C106, a name is found unless a thousand names are to be avoided. -/
theorem C106_fresh_found (avoid : List String) (hl : avoid.length < 1000) : ∃ v, generateVarname avoid = .ok v := by
  cases h : generateVarname avoid with
  | ok v => exact ⟨v, rfl⟩
  | error e =>
    exfalso
    have h2 := ((freshVarFrom_spec avoid 1000 0).2 e h).2
    have hsub : (List.range 1000).map aspVar ⊆ avoid := by
      intro x hx
      obtain ⟨k, hk, rfl⟩ := List.mem_map.1 hx
      exact h2 k (by omega) (by have := List.mem_range.1 hk; omega)
    have hnd : ((List.range 1000).map aspVar).Nodup :=
      List.Nodup.map (fun i j h => C106_var_injective i j h) List.nodup_range
    have := (hnd.subperm hsub).length_le
    simp only [List.length_map, List.length_range] at this
    omega

example : generateVarname ["X", "Z", "Y", "B"] = .ok "A" := by decide

/-! ### Costs -/

theorem lpTerms_argValue {X : LPInput} {V : Var → Prop} (hV : VarScope X V) {ts : List Term} {xs : List String}
    (ht : ∀ t ∈ ts, FlatT V t) (h : lpTerms ts = .ok xs) {σ θ} (hm : AsgMatch V σ θ) :
    xs.map (lpInst θ) = ts.map (argValue σ) := by
  rw [lpTerms_val hV (dom := X.dom) (R := ⟨fun c a b => match c with
      | .eq => a = b | .ne => a ≠ b | .lt => False | .ge => True | .le => False | .gt => True, fun _ _ => Iff.rfl,
      fun c a b => by cases c <;> simp [Cmp.complement]⟩) (S := fun _ _ => False) ht h hm]
  clear h
  induction ts with
  | nil => simp [evalTs]
  | cons t ts ih =>
    simp only [evalTs, List.map_cons, ih fun t h => ht t (by simp [h])]
    congr 1
    have := ht t (by simp)
    cases t with
    | var v => simp [evalT, argValue]
    | const n so => simp [evalT, argValue, stateInterp]
    | app f ts => simp [FlatT] at this
    | ite c a b => simp [FlatT] at this

theorem pyTrunc_int (n : Int) : pyTrunc (n : Rat) = n := by
  simp only [pyTrunc]
  split <;> simp

theorem lpTerms_vars_mem : ∀ (ps : List Var) (xs : List String), lpTerms (ps.map .var) = .ok xs → ∀ u ∈ ps, ∀ x,
    makeVarName u.sym = .ok x → x ∈ xs
  | [], _, _, u, hu, _, _ => by cases hu
  | p :: ps, xs, hx, u, hu, x, hux => by
    simp only [List.map_cons, lpTerms] at hx
    cases h1 : lpTerm (.var p) with
    | error e => simp [h1] at hx
    | ok y =>
      cases h2 : lpTerms (ps.map .var) with
      | error e => simp [h1, h2] at hx
      | ok ys =>
        simp only [h1, h2, Except.ok.injEq] at hx
        subst hx
        rcases List.mem_cons.1 hu with rfl | hu
        · simp only [lpTerm, hux, Except.ok.injEq] at h1
          simp [h1]
        · exact List.mem_cons_of_mem _ (lpTerms_vars_mem ps ys h2 u hu x hux)

/-- The full statement of C106 for one action: what the logic program says about the costs of its instances is what they cost. -/
def C106_full : Prop := ∀ (X : LPInput) (V : Var → Prop) (R : CmpRel) (M : LPSym → List String → Prop) (n : String) (a : Schema)
  (cost : ActionCost) (rules : List CostRule), VarScope X V → (∀ v ∈ a.params, V v) →
  (∀ f ts, cost = .app f ts → ∀ t ∈ ts, FlatT (fun v => v ∈ a.params) t) → lpActionCost n a cost = .ok rules →
  ∀ args v, CostDer R M rules n args v ↔
    ∃ σ : Asg String, args = a.params.map σ ∧ (∀ p ∈ a.params, M (.type p.sort) [σ p]) ∧ Costs M σ v cost

theorem flatT_mono {V W : Var → Prop} (h : ∀ v, V v → W v) {t : Term} (ht : FlatT V t) : FlatT W t := by
  cases t with
  | var v => exact h v ht
  | const n so => exact ht
  | app f ts => exact ht
  | ite c a b => exact ht

/-- C106, proved part: the costs that the program derives for the instances of an action are exactly the costs of the instances whose
arguments are of the sorts of the parameters, unless the cost is a fractional constant. In particular the invented variable
for the value of the cost function is never confused with a parameter. -/
theorem C106_costs_partial {X : LPInput} {V : Var → Prop} (hV : VarScope X V) (R : CmpRel) (M : LPSym → List String → Prop) (n : String)
    (a : Schema) (cost : ActionCost) (rules : List CostRule) (hp : ∀ v ∈ a.params, V v)
    (hts : ∀ f ts, cost = .app f ts → ∀ t ∈ ts, FlatT (fun v => v ∈ a.params) t) (hw : WholeCost cost)
    (h : lpActionCost n a cost = .ok rules) (args : List String) (v : String) : CostDer R M rules n args v ↔
    ∃ σ : Asg String, args = a.params.map σ ∧ (∀ p ∈ a.params, M (.type p.sort) [σ p]) ∧ Costs M σ v cost := by
  -- only the parameters matter
  have hV' : VarScope X (fun v => v ∈ a.params) :=
    ⟨fun v hv => hV.name v (hp v hv), fun v w hv hw => hV.inj v w (hp v hv) (hp w hw), fun v hv => hV.sort v (hp v hv)⟩
  have hflat : ∀ t ∈ a.params.map Term.var, FlatT (fun v => v ∈ a.params) t := by
    intro t ht
    obtain ⟨w, hw, rfl⟩ := List.mem_map.1 ht
    exact hw
  have hvars : ∀ t ∈ a.params.map Term.var, ∃ v, t = Term.var v ∧ v ∈ a.params := by
    intro t ht
    obtain ⟨w, hw, rfl⟩ := List.mem_map.1 ht
    exact ⟨w, rfl, hw⟩
  simp only [lpActionCost] at h
  cases hx : lpTerms (a.params.map .var) with
  | error e => simp [hx] at h
  | ok xs =>
    cases ht : lpTypes (a.params.map .var) with
    | error e => simp [hx, ht] at h
    | ok tys =>
      simp only [hx, ht] at h
      have hxs : ∀ {σ θ}, AsgMatch (fun v => v ∈ a.params) σ θ → xs.map (lpInst θ) = a.params.map σ := by
        intro σ θ hm
        rw [lpTerms_argValue hV' hflat hx hm, List.map_map]
        rfl
      have htys : ∀ {σ θ}, AsgMatch (fun v => v ∈ a.params) σ θ →
          ((∀ l ∈ tys, LitTrue R M θ l) ↔ ∀ p ∈ a.params, M (.type p.sort) [σ p]) := by
        intro σ θ hm
        rw [lpTypes_vars hV' hm hvars ht]
        constructor
        · intro h p hp; exact h p (List.mem_map.2 ⟨p, hp, rfl⟩)
        · intro h p hp
          obtain ⟨w, hw, e⟩ := List.mem_map.1 hp
          cases e
          exact h p hw
      -- a rule whose value is a number
      have hnum : ∀ k : Int, CostDer R M [⟨n, xs, .num k, tys⟩] n args v ↔
          ∃ σ : Asg String, args = a.params.map σ ∧ (∀ p ∈ a.params, M (.type p.sort) [σ p]) ∧ v = toString k := by
        intro k
        simp only [CostDer, List.mem_singleton, exists_eq_left, CostArg.inst, true_and]
        constructor
        · rintro ⟨θ, h1, h2, h3⟩
          exact ⟨_, by rw [← h1, hxs (match_of_val hV' θ)], (htys (match_of_val hV' θ)).1 h3, h2.symm⟩
        · rintro ⟨σ, h1, h2, h3⟩
          obtain ⟨θ, hm⟩ := exists_match hV' σ
          exact ⟨θ, by rw [hxs hm, h1], h3.symm, (htys hm).2 h2⟩
      cases cost with
      | none =>
        simp only [Except.ok.injEq] at h
        subst h
        exact hnum 1
      | const q =>
        simp only [Except.ok.injEq] at h
        subst h
        obtain ⟨k, rfl⟩ := hw
        rw [pyTrunc_int, hnum]
        refine exists_congr fun σ => and_congr_right fun _ => and_congr_right fun _ => ?_
        simp only [Costs]
        constructor
        · intro e; exact ⟨k, rfl, e⟩
        · rintro ⟨m, e, e'⟩
          rw [e', Int.cast_injective (α := Rat) e]
      | app f ts =>
        simp only at h
        cases hg : generateVarname xs with
        | error e => simp [hg] at h
        | ok w =>
          obtain ⟨hfresh, hwv⟩ := C106_fresh _ _ hg
          cases hy : lpTerms ts with
          | error e => simp [hg, hy] at h
          | ok ys =>
            simp only [hg, hy, Except.ok.injEq] at h
            subst h
            have hys : ∀ {σ θ}, AsgMatch (fun v => v ∈ a.params) σ θ → ys.map (lpInst θ) = ts.map (argValue σ) :=
              fun hm => lpTerms_argValue hV' (hts f ts rfl) hy hm
            have hiw : ∀ θ, lpInst θ w = θ w := fun θ => by simp [lpInst, hwv]
            simp only [CostDer, List.mem_singleton, exists_eq_left, CostArg.inst, true_and, Costs, List.forall_mem_append,
              forall_eq, LitTrue, List.map_append, List.map_cons, List.map_nil, hiw]
            constructor
            · rintro ⟨θ, h1, h2, h3, h4⟩
              have hm := match_of_val hV' θ
              refine ⟨_, by rw [← h1, hxs hm], (htys hm).1 h3, ?_⟩
              rw [← hys hm, ← h2]
              exact h4
            · rintro ⟨σ, h1, h2, h3⟩
              obtain ⟨θ, hm⟩ := exists_match hV' σ
              -- give the invented variable the value of the cost function
              have hm' : AsgMatch (fun v => v ∈ a.params) σ (fun x => if x = w then v else θ x) := by
                intro u hu x hux
                have : x ∈ xs := lpTerms_vars_mem _ _ hx u hu x hux
                have hne : x ≠ w := fun e => hfresh (e ▸ this)
                simp only [if_neg hne]
                exact hm u hu x hux
              refine ⟨_, by rw [hxs hm', h1], by simp, (htys hm').2 h2, ?_⟩
              rw [hys hm']
              simpa using h3
      | otherTerm =>
        simp only [Except.ok.injEq] at h
        subst h
        simp [CostDer, Costs]
      | unknown => cases h

/-- C106: when the cost function has exactly one value for each argument, each well-typed instance has exactly one cost, and it is the
value of the function. -/
theorem C106_one_cost {X : LPInput} {V : Var → Prop} (hV : VarScope X V) (R : CmpRel) (M : LPSym → List String → Prop) (n : String)
    (a : Schema) (f : String) (ts : List Term) (rules : List CostRule) (hp : ∀ v ∈ a.params, V v)
    (hts : ∀ t ∈ ts, FlatT (fun v => v ∈ a.params) t) (h : lpActionCost n a (.app f ts) = .ok rules)
    (val : List String → String) (hf : ∀ as v, M (.atom f) (as ++ [v]) ↔ v = val as) (σ : Asg String)
    (hσ : ∀ p ∈ a.params, M (.type p.sort) [σ p]) (v : String) :
    CostDer R M rules n (a.params.map σ) v ↔ v = val (ts.map (argValue σ)) := by
  rw [C106_costs_partial hV R M n a (.app f ts) rules hp (fun g us e => by cases e; exact hts) trivial h]
  simp only [Costs, hf]
  constructor
  · rintro ⟨τ, h1, -, rfl⟩
    congr 1
    refine List.map_congr_left fun t ht => ?_
    have := hts t ht
    cases t with
    | var u =>
      have : ∀ l : List Var, l.map σ = l.map τ → u ∈ l → σ u = τ u := by
        intro l hl hu
        induction l with
        | nil => cases hu
        | cons w l ih =>
          simp only [List.map_cons, List.cons.injEq] at hl
          rcases List.mem_cons.1 hu with rfl | hu
          · exact hl.1
          · exact ih hl.2 hu
      exact (this _ h1 ‹_›).symm
    | const m so => rfl
    | app g us => simp [FlatT] at this
    | ite c x y => simp [FlatT] at this
  · rintro rfl
    exact ⟨σ, rfl, hσ, rfl⟩

/-- An action without parameters, for the examples. -/
def exCostSchema : Schema := { params := [], pre := .top, effs := [] }

/-- The full statement is false: a cost of 5/2 is printed as 2. -/
theorem C106_refuted : ¬ C106_full := by
  intro h
  have hR : CmpRel := ⟨fun c a b => match c with
      | .eq => a = b | .ne => a ≠ b | .lt => False | .ge => True | .le => False | .gt => True, fun _ _ => Iff.rfl,
      fun c a b => by cases c <;> simp [Cmp.complement]⟩
  have := (h ⟨[], [], fun _ => false, fun _ => none, fun _ => .ok [], [], [], [], [], .top⟩ (fun _ => False) hR (fun _ _ => False) "a"
    exCostSchema (.const (5 / 2)) [⟨"a", [], .num 2, []⟩] ⟨fun _ h => h.elim, fun _ _ h => h.elim, fun _ h => h.elim⟩
    (by simp [exCostSchema]) (by intro f ts e; cases e) (by
      have e : pyTrunc (5 / 2) = 2 := by
        have : (0 : Rat) ≤ 5 / 2 := by norm_num
        rw [pyTrunc, if_pos this, Int.floor_eq_iff]
        constructor <;> norm_num
      simp [lpActionCost, exCostSchema, lpTerms, lpTypes, e]) [] "2").1
    ⟨⟨"a", [], .num 2, []⟩, by simp, fun _ => "", rfl, rfl, rfl, by simp⟩
  obtain ⟨σ, -, -, k, hk, -⟩ := this
  have h2 : (5 : Rat) = ((2 * k : Int) : Rat) := by push_cast; rw [← hk]; norm_num
  have h3 : (5 : Int) = 2 * k := by exact_mod_cast h2
  omega

/-! ### The loop over the actions, and the facts of the initial state -/

/-- C106, the cost rules are those of the actions whose parameters have sorts with objects. -/
theorem C106_all_actions (dom : Domains) : ∀ (l : List (String × Schema × ActionCost)) (rules : List CostRule),
    lpActionCosts dom l = .ok rules → ∀ r, r ∈ rules ↔ ∃ n a c rs, (n, a, c) ∈ l ∧ allInhabited dom a.params = .ok true ∧
      lpActionCost n a c = .ok rs ∧ r ∈ rs
  | [], rules, h, r => by
    simp only [lpActionCosts, Except.ok.injEq] at h; subst h; simp
  | (n, a, c) :: l, rules, h, r => by
    simp only [lpActionCosts] at h
    cases hi : allInhabited dom a.params with
    | error e => simp [hi] at h
    | ok b =>
      cases b with
      | false =>
        simp only [hi] at h
        rw [C106_all_actions dom l rules h r]
        constructor
        · rintro ⟨n', a', c', rs, h1, h2⟩; exact ⟨n', a', c', rs, List.mem_cons_of_mem _ h1, h2⟩
        · rintro ⟨n', a', c', rs, h1, h2, h3⟩
          rcases List.mem_cons.1 h1 with e | h1
          · cases e; rw [hi] at h2; cases h2
          · exact ⟨n', a', c', rs, h1, h2, h3⟩
      | true =>
        simp only [hi] at h
        cases hc : lpActionCost n a c with
        | error e => simp [hc] at h
        | ok rs =>
          simp only [hc] at h
          cases hl : lpActionCosts dom l with
          | error e => simp [hl] at h
          | ok rs' =>
            simp only [hl, Except.ok.injEq] at h
            subst h
            rw [List.mem_append, C106_all_actions dom l rs' hl r]
            constructor
            · rintro (h1 | ⟨n', a', c', rs2, h1, h2⟩)
              · exact ⟨n, a, c, rs, by simp, hi, hc, h1⟩
              · exact ⟨n', a', c', rs2, List.mem_cons_of_mem _ h1, h2⟩
            · rintro ⟨n', a', c', rs2, h1, h2, h3, h4⟩
              rcases List.mem_cons.1 h1 with e | h1
              · cases e; rw [hc] at h3; cases h3; exact .inl h4
              · exact .inr ⟨n', a', c', rs2, h1, h2, h3, h4⟩

/-- C106, the facts about cost functions are the functional atoms of the initial state, except for `total-cost`; a functional atom that
is not about costs is refused. -/
theorem C106_init_facts (costFns : List String) : ∀ (l : List (String × List Term × Term)),
    (∀ f ts v, (f, ts, v) ∈ l → (∀ t ∈ ts, ∃ n so, t = Term.const n so) ∧ ∃ n so, v = Term.const n so) →
    ((∃ rs, lpInitCosts costFns l = .ok rs) ↔ ∀ f ts v, (f, ts, v) ∈ l → f = "total-cost" ∨ f ∈ costFns) ∧
    ∀ rs, lpInitCosts costFns l = .ok rs → ∀ r, r ∈ rs ↔ ∃ f ts v, (f, ts, v) ∈ l ∧ f ≠ "total-cost" ∧
      r = ⟨.pred (.atom f) (ts.map (argValue fun _ => "") ++ [argValue (fun _ => "") v]), []⟩
  | [], _ => by simp [lpInitCosts]
  | (f, ts, v) :: l, hg => by
    obtain ⟨ih1, ih2⟩ := C106_init_facts costFns l fun f ts v h => hg f ts v (List.mem_cons_of_mem _ h)
    obtain ⟨hts, hv⟩ := hg f ts v (by simp)
    have hok : ∀ ts : List Term, (∀ t ∈ ts, ∃ n so, t = Term.const n so) → lpTerms ts = .ok (ts.map (argValue fun _ => "")) := by
      intro ts
      induction ts with
      | nil => intro _; rfl
      | cons t ts ih =>
        intro h
        obtain ⟨n, so, rfl⟩ := h t (by simp)
        simp [lpTerms, lpTerm, ih fun t h' => h t (by simp [h']), argValue]
    have hall : lpTerms (ts ++ [v]) = .ok (ts.map (argValue fun _ => "") ++ [argValue (fun _ => "") v]) := by
      rw [hok _ (by
        intro t ht
        rcases List.mem_append.1 ht with h | h
        · exact hts t h
        · rw [List.mem_singleton.1 h]; exact hv)]
      simp
    simp only [lpInitCosts]
    split
    · rename_i htc
      subst htc
      refine ⟨ih1.trans ⟨fun h g us w hm => ?_, fun h g us w hm => h g us w (List.mem_cons_of_mem _ hm)⟩, fun rs h r => ?_⟩
      · rcases List.mem_cons.1 hm with e | hm
        · cases e; exact .inl rfl
        · exact h g us w hm
      · rw [ih2 rs h r]
        constructor
        · rintro ⟨g, us, w, h1, h2⟩; exact ⟨g, us, w, List.mem_cons_of_mem _ h1, h2⟩
        · rintro ⟨g, us, w, h1, h2, h3⟩
          rcases List.mem_cons.1 h1 with e | h1
          · cases e; exact absurd rfl h2
          · exact ⟨g, us, w, h1, h2, h3⟩
    · rename_i htc
      split
      · rename_i hc
        have hc : f ∈ costFns := by simpa using hc
        rw [hall]
        cases hl : lpInitCosts costFns l with
        | error e =>
          rw [hl] at ih1
          refine ⟨⟨fun ⟨_, h⟩ => (by cases h), fun h => ?_⟩, fun rs h => (by cases h)⟩
          obtain ⟨rs, hrs⟩ := ih1.2 fun g us w hm => h g us w (List.mem_cons_of_mem _ hm)
          cases hrs
        | ok rs' =>
          refine ⟨⟨fun _ g us w hm => ?_, fun _ => ⟨_, rfl⟩⟩, fun rs h r => ?_⟩
          · rcases List.mem_cons.1 hm with e | hm
            · cases e; exact .inr hc
            · exact ih1.1 ⟨_, hl⟩ g us w hm
          · simp only [Except.ok.injEq] at h
            subst h
            rw [List.mem_cons, ih2 rs' hl r]
            constructor
            · rintro (h1 | ⟨g, us, w, h1, h2⟩)
              · exact ⟨f, ts, v, by simp, htc, h1⟩
              · exact ⟨g, us, w, List.mem_cons_of_mem _ h1, h2⟩
            · rintro ⟨g, us, w, h1, h2, h3⟩
              rcases List.mem_cons.1 h1 with e | h1
              · cases e; exact .inl h3
              · exact .inr ⟨g, us, w, h1, h2, h3⟩
      · rename_i hc
        refine ⟨⟨fun ⟨_, h⟩ => (by cases h), fun h => ?_⟩, fun rs h => (by cases h)⟩
        rcases h f ts v (by simp) with e | e
        · exact absurd e htc
        · exact absurd (by simpa using e) hc

/-! ### A concrete case: driving from one place to another costs their distance -/

def exDrive : Schema := { params := [⟨"?x", "place"⟩, ⟨"?y", "place"⟩], pre := .top, effs := [] }

example : lpActionCost "drive" exDrive (.app "distance" [.var ⟨"?x", "place"⟩, .var ⟨"?y", "place"⟩]) = .ok
    [⟨"drive", ["X", "Y"], .var "Z", [.pred (.type "place") ["X"], .pred (.type "place") ["Y"],
      .pred (.atom "distance") ["X", "Y", "Z"]]⟩] := by rfl

example : VarScope ⟨[], ["place"], fun _ => false, fun _ => none, fun _ => .ok [], [], [], [], [], .top⟩ (fun v => v ∈ exDrive.params) := by
  refine ⟨?_, ?_, ?_⟩
  · intro v hv
    simp only [exDrive, List.mem_cons, List.not_mem_nil, or_false] at hv
    rcases hv with rfl | rfl
    · exact ⟨"X", rfl, rfl⟩
    · exact ⟨"Y", rfl, rfl⟩
  · intro v w hv hw h
    simp only [exDrive, List.mem_cons, List.not_mem_nil, or_false] at hv hw
    rcases hv with rfl | rfl <;> rcases hw with rfl | rfl
    · rfl
    · exact absurd h (by decide)
    · exact absurd h (by decide)
    · rfl
  · intro v hv
    simp only [exDrive, List.mem_cons, List.not_mem_nil, or_false] at hv
    rcases hv with rfl | rfl <;> simp

end Tarski

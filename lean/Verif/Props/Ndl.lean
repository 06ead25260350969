import Mathlib.Tactic.Common
import Mathlib.Data.List.Induction
import Verif.Ndl
import Verif.Props.Containers
/-! C89: temporal actions. -/
namespace Tarski

/-! ### Specification -/

/-- The duration for which a request holds a resource. -/
def NdlItem.holds : NdlItem → Option Int
  | .lock _ td _ => some td
  | .level _ td _ _ => some td
  | _ => none

def NdlItem.isLock : NdlItem → Bool
  | .lock _ _ _ => true
  | _ => false

/-- What an effect changes. -/
def NdlItem.key : NdlItem → Option NdlKey
  | .assign l r => some (.eq (.atom (.cmp .eq) [l, r]))
  | .set l v => some (.lit l v)
  | _ => none

/-- The element is over at this time: a request that is made `delay` after the start and locks the resource from `ts` on for
`td`, an effect when it happens. -/
def Timed.ends (t : Timed) : Int :=
  match t.eff with
  | .lock ts td _ => t.delay + ts + td
  | .level ts td _ _ => t.delay + ts + td
  | _ => t.delay

def timedOf (effs : List NdlEff) : List Timed := effs.filterMap fun e => match e with | .timed t => some t | .untimed => none

/-! ### Proof -/

theorem ndlReq_ok (rs : List Timed) (a b : NdlAction) :
    ndlRequirements rs a = .ok b ↔ (∀ r ∈ rs, r.eff.holds.isSome) ∧
      b = { a with locks := a.locks ++ rs.filter (fun r => r.eff.isLock), levels := a.levels ++ rs.filter (fun r => !r.eff.isLock),
                   maxEffTime := rs.foldl (fun m r => max m (r.eff.holds.getD 0)) a.maxEffTime } := by
  induction rs generalizing a with
  | nil =>
    simp only [ndlRequirements, List.not_mem_nil, false_implies, implies_true, List.filter_nil, List.append_nil, List.foldl_nil,
      true_and, Except.ok.injEq]
    exact eq_comm
  | cons r rs ih =>
    simp only [ndlRequirements, List.forall_mem_cons, List.foldl_cons]
    cases hr : r.eff with
    | lock ts td t => rw [ih]; simp [NdlItem.holds, NdlItem.isLock, hr]
    | level ts td t n => rw [ih]; simp [NdlItem.holds, NdlItem.isLock, hr]
    | assign l r => simp [NdlItem.holds]
    | set l v => simp [NdlItem.holds]
    | other => simp [NdlItem.holds]

theorem ndlEff_ok (es : List NdlEff) (a b : NdlAction) (h : ndlEffects es a = .ok b) :
    (∀ e ∈ es, ∃ t, e = .timed t ∧ t.eff.key.isSome) ∧ b.locks = a.locks ∧ b.levels = a.levels ∧
      b.timed = a.timed ++ timedOf es ∧ b.maxEffTime = (timedOf es).foldl (fun m t => max m t.delay) a.maxEffTime ∧
      ∀ k, dlookup b.effectTimes k =
        (((timedOf es).reverse.find? (fun t => t.eff.key = some k)).map Timed.delay).or (dlookup a.effectTimes k) := by
  induction es generalizing a with
  | nil => cases h; simp [timedOf]
  | cons e es ih =>
    cases e with
    | untimed => cases h
    | timed t =>
      simp only [ndlEffects] at h
      have main : ∀ k0, t.eff.key = some k0 → ndlEffects es { a with timed := a.timed ++ [t], maxEffTime := max a.maxEffTime t.delay, effectTimes := dinsert a.effectTimes k0 t.delay } = .ok b → _ :=
        fun k0 hk0 h => by
          obtain ⟨i1, i2, i3, i4, i5, i6⟩ := ih _ h
          refine (⟨?_, i2, i3, ?_, ?_, ?_⟩ : (∀ e ∈ NdlEff.timed t :: es, ∃ t, e = .timed t ∧ t.eff.key.isSome) ∧ b.locks = a.locks ∧ b.levels = a.levels ∧
              b.timed = a.timed ++ timedOf (.timed t :: es) ∧ b.maxEffTime = (timedOf (.timed t :: es)).foldl (fun m t => max m t.delay) a.maxEffTime ∧
              ∀ k, dlookup b.effectTimes k =
                (((timedOf (.timed t :: es)).reverse.find? (fun t => t.eff.key = some k)).map Timed.delay).or (dlookup a.effectTimes k))
          · intro e he
            rcases List.mem_cons.1 he with rfl | he
            · exact ⟨t, rfl, by rw [hk0]; rfl⟩
            · exact i1 e he
          · rw [i4]; simp [timedOf]
          · rw [i5]; simp [timedOf]
          · intro k
            rw [i6 k, dlookup_dinsert]
            have e1 : timedOf (.timed t :: es) = t :: timedOf es := by simp [timedOf]
            rw [e1, List.reverse_cons, List.find?_append]
            cases (timedOf es).reverse.find? (fun t => t.eff.key = some k) with
            | some x => simp
            | none =>
              by_cases hk : k0 = k
              · subst hk; simp [hk0]
              · simp [hk0, hk]
      cases he : t.eff with
      | assign l r => rw [he] at h; exact main _ (by rw [he]; rfl) h
      | set l v => rw [he] at h; exact main _ (by rw [he]; rfl) h
      | lock ts td r => rw [he] at h; cases h
      | level ts td r n => rw [he] at h; cases h
      | other => rw [he] at h; cases h

theorem ndlEff_succeeds (es : List NdlEff) (a : NdlAction) (h : ∀ e ∈ es, ∃ t, e = .timed t ∧ t.eff.key.isSome) :
    ∃ b, ndlEffects es a = .ok b := by
  induction es generalizing a with
  | nil => exact ⟨a, rfl⟩
  | cons e es ih =>
    obtain ⟨t, rfl, ht⟩ := h e (by simp)
    simp only [ndlEffects]
    cases he : t.eff with
    | assign l r => exact ih _ fun e he => h e (by simp [he])
    | set l v => exact ih _ fun e he => h e (by simp [he])
    | lock ts td r => rw [he] at ht; cases ht
    | level ts td r n => rw [he] at ht; cases ht
    | other => rw [he] at ht; cases ht

theorem foldl_max {α} (f : α → Int) (l : List α) (m : Int) :
    m ≤ l.foldl (fun m a => max m (f a)) m ∧ (∀ a ∈ l, f a ≤ l.foldl (fun m a => max m (f a)) m) ∧
      (l.foldl (fun m a => max m (f a)) m = m ∨ ∃ a ∈ l, l.foldl (fun m a => max m (f a)) m = f a) := by
  induction l generalizing m with
  | nil => simp
  | cons a l ih =>
    obtain ⟨h1, h2, h3⟩ := ih (max m (f a))
    simp only [List.foldl_cons, List.mem_cons, forall_eq_or_imp, exists_eq_or_imp]
    refine ⟨by omega, ⟨by omega, h2⟩, ?_⟩
    rcases h3 with h3 | h3
    · rcases Int.le_total m (f a) with hm | hm
      · exact .inr (.inl (by rw [h3]; omega))
      · exact .inl (by rw [h3]; omega)
    · exact .inr (.inr h3)

theorem mkNdl_ok {pre post reqs effs b} (h : mkNdlAction pre post reqs effs = .ok b) :
    ∃ a, ndlRequirements reqs ⟨0, [], [], [], []⟩ = .ok a ∧ ndlEffects effs a = .ok b := by
  unfold mkNdlAction at h
  split at h
  · cases h
  · split at h
    · cases h
    · split at h
      · cases h
      · rename_i a ha
        exact ⟨a, ha, h⟩

/-! ### Theorems -/

/-- C89: an action is built exactly when its conditions are compound formulas, atoms or tautologies, all requirements are
locks or levels, and all effects are timed assignments or literals. -/
theorem C89_accepts (pre : Formula) (post : Option Formula) (reqs : List Timed) (effs : List NdlEff) :
    (∃ a, mkNdlAction pre post reqs effs = .ok a) ↔
      (∀ f, f = pre ∨ post = some f → f ≠ .bot ∧ ∀ q vs g, f ≠ .quant q vs g) ∧ (∀ r ∈ reqs, r.eff.holds.isSome) ∧
      ∀ e ∈ effs, ∃ t, e = .timed t ∧ t.eff.key.isSome := by
  have hcond : ∀ f, ndlCondition f = true ↔ f ≠ .bot ∧ ∀ q vs g, f ≠ .quant q vs g := by
    intro f; cases f <;> simp [ndlCondition]
  have hc : (∀ f, f = pre ∨ post = some f → f ≠ .bot ∧ ∀ q vs g, f ≠ .quant q vs g) ↔
      ¬ (ndlCondition pre = false) ∧ ¬ (postFails post = true) := by
    rw [Bool.not_eq_false]
    cases post with
    | none => simp [hcond, postFails]
    | some p =>
      simp only [postFails, Option.some.injEq, Bool.not_eq_true', Bool.not_eq_false, hcond]
      constructor
      · intro h; exact ⟨h pre (.inl rfl), h p (.inr rfl)⟩
      · rintro ⟨h1, h2⟩ f (rfl | rfl) <;> assumption
  rw [hc]
  constructor
  · rintro ⟨b, hb⟩
    obtain ⟨a, h1, h2⟩ := mkNdl_ok hb
    refine ⟨?_, ((ndlReq_ok _ _ _).1 h1).1, (ndlEff_ok _ _ _ h2).1⟩
    unfold mkNdlAction at hb
    split at hb
    · cases hb
    · split at hb
      · cases hb
      · rename_i x y; exact ⟨x, y⟩
  · rintro ⟨⟨h1, h2⟩, h3, h4⟩
    have hr := (ndlReq_ok reqs ⟨0, [], [], [], []⟩ _).2 ⟨h3, rfl⟩
    obtain ⟨b, hb⟩ := ndlEff_succeeds effs _ h4
    refine ⟨b, ?_⟩
    unfold mkNdlAction
    rw [if_neg h1, if_neg h2, hr]
    exact hb

/-- C89: a request to lock a resource is accepted exactly when the resource is a compound term, and keeps what it was given. -/
theorem C89_lock (ts td : Int) (r : Term) :
    (∀ x, mkLock ts td r = .ok x ↔ (∃ f args, r = .app f args) ∧ x = .lock ts td r) ∧
    (∀ e, mkLock ts td r = .error e ↔ (¬ ∃ f args, r = .app f args) ∧ e = .syntactic) := by
  cases r <;> simp [mkLock, eq_comm]

/-- C89: a request for a level is accepted exactly when the resource is a compound term and the level a constant of the sort of
that term, and keeps what it was given. -/
theorem C89_level (cod : String → String) (ts td : Int) (r n : Term) :
    (∀ x, mkLevel cod ts td r n = .ok x ↔ ∃ f args m, r = .app f args ∧ n = .const m (cod f) ∧ x = .level ts td r ⟨m, cod f⟩) ∧
    (∀ e, mkLevel cod ts td r n = .error e ↔ (¬ ∃ f args m, r = .app f args ∧ n = .const m (cod f)) ∧ e = .syntactic) := by
  cases r with
  | app f args =>
    cases n with
    | const m s =>
      by_cases h : s = cod f
      · subst h; simp [mkLevel, eq_comm]
      · simp [mkLevel, h, eq_comm]
    | _ => simp [mkLevel, eq_comm]
  | _ => simp [mkLevel, eq_comm]

/-- C89: the requirements are split into locks and levels, and the effects kept, all in their order. -/
theorem C89_keeps {pre post reqs effs a} (h : mkNdlAction pre post reqs effs = .ok a) :
    a.locks = reqs.filter (fun r => r.eff.isLock) ∧ a.levels = reqs.filter (fun r => !r.eff.isLock) ∧ a.timed = timedOf effs := by
  obtain ⟨b, h1, h2⟩ := mkNdl_ok h
  obtain ⟨-, rfl⟩ := (ndlReq_ok _ _ _).1 h1
  obtain ⟨-, i2, i3, i4, -, -⟩ := ndlEff_ok _ _ _ h2
  exact ⟨by simpa using i2, by simpa using i3, by simpa using i4⟩

/-- C89: `max_eff_time` is the least time, not below 0, that no delay of an effect and no duration of a request exceeds. The
property asks for the time when the last element ends. -/
theorem C89_max_time_partial {pre post reqs effs a} (h : mkNdlAction pre post reqs effs = .ok a) :
    0 ≤ a.maxEffTime ∧ (∀ t ∈ timedOf effs, t.delay ≤ a.maxEffTime) ∧ (∀ r ∈ reqs, ∀ d, r.eff.holds = some d → d ≤ a.maxEffTime) ∧
    (a.maxEffTime = 0 ∨ (∃ t ∈ timedOf effs, a.maxEffTime = t.delay) ∨ ∃ r ∈ reqs, r.eff.holds = some a.maxEffTime) := by
  obtain ⟨b, h1, h2⟩ := mkNdl_ok h
  obtain ⟨hs, rfl⟩ := (ndlReq_ok _ _ _).1 h1
  obtain ⟨-, -, -, -, i5, -⟩ := ndlEff_ok _ _ _ h2
  dsimp only at i5
  obtain ⟨m, hm⟩ : ∃ m, m = reqs.foldl (fun m r => max m (r.eff.holds.getD 0)) 0 := ⟨_, rfl⟩
  rw [← hm] at i5
  obtain ⟨p1, p2, p3⟩ := foldl_max (fun r : Timed => r.eff.holds.getD 0) reqs 0
  rw [← hm] at p1 p2 p3
  obtain ⟨q1, q2, q3⟩ := foldl_max Timed.delay (timedOf effs) m
  rw [← i5] at q1 q2 q3
  refine ⟨by omega, q2, fun r hr d hd => ?_, ?_⟩
  · have := p2 r hr
    rw [hd] at this
    exact Int.le_trans this q1
  · rcases q3 with e | q3
    · rcases p3 with e' | ⟨r, hr, e'⟩
      · exact .inl (by rw [e, e'])
      · refine .inr (.inr ⟨r, hr, ?_⟩)
        have := hs r hr
        rw [e, e']
        cases hh : r.eff.holds with
        | none => rw [hh] at this; cases this
        | some d => rfl
    · exact .inr (.inl q3)

/-- C89: when requests start at once (`ts` and the delay are 0), `max_eff_time` is exactly the time when the last element
ends. -/
theorem C89_max_time_immediate {pre post reqs effs a} (h : mkNdlAction pre post reqs effs = .ok a)
    (hz : ∀ r ∈ reqs, r.delay = 0 ∧ (∀ ts td x, r.eff = .lock ts td x → ts = 0) ∧ ∀ ts td x n, r.eff = .level ts td x n → ts = 0) :
    (∀ t ∈ reqs ++ timedOf effs, t.ends ≤ a.maxEffTime) ∧
    (a.maxEffTime = 0 ∨ ∃ t ∈ reqs ++ timedOf effs, t.ends = a.maxEffTime) := by
  obtain ⟨h1, h2, h3, h4⟩ := C89_max_time_partial h
  obtain ⟨-, hr, he⟩ := (C89_accepts pre post reqs effs).1 ⟨a, h⟩
  have hends : ∀ r ∈ reqs, r.eff.holds = some r.ends := by
    intro r hrm
    obtain ⟨z1, z2, z3⟩ := hz r hrm
    have hs := hr r hrm
    unfold Timed.ends
    cases e : r.eff with
    | lock ts td x => simp [NdlItem.holds, z1, z2 ts td x e]
    | level ts td x n => simp [NdlItem.holds, z1, z3 ts td x n e]
    | assign => rw [e] at hs; cases hs
    | set => rw [e] at hs; cases hs
    | other => rw [e] at hs; cases hs
  have hendt : ∀ t ∈ timedOf effs, t.ends = t.delay := by
    intro t ht
    simp only [timedOf, List.mem_filterMap] at ht
    obtain ⟨e, hem, he'⟩ := ht
    obtain ⟨t', rfl, hk⟩ := he e hem
    simp only [Option.some.injEq] at he'
    subst he'
    unfold Timed.ends
    cases e : t'.eff <;> rw [e] at hk <;> first | rfl | cases hk
  refine ⟨fun t ht => ?_, ?_⟩
  · rcases List.mem_append.1 ht with ht | ht
    · exact h3 t ht _ (hends t ht)
    · rw [hendt t ht]; exact h2 t ht
  · rcases h4 with e | ⟨t, ht, e⟩ | ⟨r, hrm, e⟩
    · exact .inl e
    · exact .inr ⟨t, by simp [ht], by rw [hendt t ht, e]⟩
    · refine .inr ⟨r, by simp [hrm], ?_⟩
      rw [hends r hrm] at e
      exact Option.some.inj e

/-- C89: the time of an effect is the delay of the *last* timed effect that makes the same change; asking for a change that
the action does not make raises. -/
theorem C89_effect_time {pre post reqs effs a} (h : mkNdlAction pre post reqs effs = .ok a) (k : NdlKey) :
    a.effectTime k = match (timedOf effs).reverse.find? (fun t => t.eff.key = some k) with
      | some t => .ok t.delay
      | none => .error .keyError := by
  obtain ⟨b, h1, h2⟩ := mkNdl_ok h
  obtain ⟨-, rfl⟩ := (ndlReq_ok _ _ _).1 h1
  obtain ⟨-, -, -, -, -, i6⟩ := ndlEff_ok _ _ _ h2
  rw [NdlAction.effectTime, i6 k]
  cases (timedOf effs).reverse.find? (fun t => t.eff.key = some k) <;> simp [dlookup]

/-! ### Refutations and concrete cases -/

def ndlCamera : Term := .app "engaged" [.const (.str "camera") "sensor"]
def ndlSeen : Formula := .atom (.user "observed") [.const (.str "p0") "region"]
def ndlLockLate : List Timed := [⟨5, .lock 20 10 ndlCamera⟩]

/-- C89: a lock that starts later makes the action end after `max_eff_time`: here it ends at 35, and the attribute says 10. -/
theorem C89_max_time_refuted : ∃ a, mkNdlAction ndlSeen none ndlLockLate [] = .ok a ∧ a.maxEffTime = 10 ∧
    ∃ t ∈ a.locks, t.ends = 35 := ⟨_, rfl, rfl, _, .head _, rfl⟩

/-- C89: an effect that happens at two times: only the last time can be asked for. -/
theorem C89_effect_time_refuted : ∃ a, mkNdlAction ndlSeen none [] [.timed ⟨4, .set ndlSeen true⟩, .timed ⟨2, .set ndlSeen true⟩] = .ok a ∧
    a.timed.map Timed.delay = [4, 2] ∧ a.effectTime (.lit ndlSeen true) = .ok 2 := ⟨_, rfl, rfl, rfl⟩

/-- The action of the tests. -/
example : ∃ a, mkNdlAction ndlSeen none [⟨0, .lock 0 10 ndlCamera⟩, ⟨0, .level 0 20 ndlCamera ⟨.int 0, "Integer"⟩⟩]
      [.timed ⟨21, .set ndlSeen true⟩] = .ok a ∧ a.maxEffTime = 21 ∧ a.locks.length = 1 ∧ a.levels.length = 1 ∧
      a.effectTime (.lit ndlSeen true) = .ok 21 ∧ a.effectTime (.lit ndlSeen false) = .error .keyError :=
  ⟨_, rfl, rfl, rfl, rfl, rfl, rfl⟩

/-- The hypotheses of `C89_max_time_immediate`. -/
example : ∀ r ∈ [(⟨0, .lock 0 10 ndlCamera⟩ : Timed), ⟨0, .level 0 20 ndlCamera ⟨.int 0, "Integer"⟩⟩],
    r.delay = 0 ∧ (∀ ts td x, r.eff = .lock ts td x → ts = 0) ∧ ∀ ts td x n, r.eff = .level ts td x n → ts = 0 := by
  intro r hr
  simp only [List.mem_cons, List.not_mem_nil, or_false] at hr
  rcases hr with rfl | rfl
  · exact ⟨rfl, by rintro ts td x ⟨⟩; rfl, by rintro ts td x n ⟨⟩⟩
  · exact ⟨rfl, by rintro ts td x ⟨⟩, by rintro ts td x n ⟨⟩; rfl⟩

/-- The constructors of requests. -/
example : mkLock 0 1 (.const (.str "c") "s") = .error .syntactic ∧
    mkLevel (fun _ => "Integer") 0 1 ndlCamera (.const (.str "c") "s") = .error .syntactic ∧
    (∃ l, mkLevel (fun _ => "Integer") 0 1 ndlCamera (.const (.int 2) "Integer") = .ok l) := ⟨rfl, rfl, _, rfl⟩

end Tarski

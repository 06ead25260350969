import Mathlib.Tactic.Common
import Verif.Effects
import Verif.QELemmas
import Verif.ModelLemmas
import Verif.Props.Model
namespace Tarski

/-! ### Nesting depth and fuel -/

mutual
theorem subE_depth (s : Subst) : ∀ e, edepth (subE s e) = edepth e
  | .add _ _ _ => rfl
  | .del _ _ _ => rfl
  | .lit _ _ => rfl
  | .assign _ _ _ _ => rfl
  | .univ _ _ es => by simp [subE, edepth, subEs_depth s es]
theorem subEs_depth (s : Subst) : ∀ es, edepths (subEs s es) = edepths es
  | [] => rfl
  | e :: es => by simp [subEs, edepths, subE_depth s e, subEs_depth s es]
end

theorem edepth_le {es : List Effect} {e} (h : e ∈ es) : edepth e ≤ edepths es := by
  induction es with
  | nil => simp at h
  | cons x es ih =>
    simp only [edepths]
    rcases List.mem_cons.1 h with rfl | h
    · exact Nat.le_max_left ..
    · exact Nat.le_trans (ih h) (Nat.le_max_right ..)

theorem subEs_eq_map (s : Subst) (es : List Effect) : subEs s es = es.map (subE s) := by
  induction es with
  | nil => rfl
  | cons e es ih => simp [subEs, ih]

theorem seqApply_congr {α} {f g : MState → α → Except Err MState} {as : List α}
    (h : ∀ a ∈ as, ∀ m, f m a = g m a) (m : MState) : seqApply f m as = seqApply g m as := by
  induction as generalizing m with
  | nil => rfl
  | cons a as ih =>
    simp only [seqApply, h a (by simp) m]
    cases g m a with
    | error e => rfl
    | ok m' => exact ih (fun b hb => h b (by simp [hb])) m'

theorem seqApply_append {α} (f : MState → α → Except Err MState) (as bs : List α) (m : MState) :
    seqApply f m (as ++ bs) = match seqApply f m as with
      | .error e => .error e
      | .ok m' => seqApply f m' bs := by
  induction as generalizing m with
  | nil => rfl
  | cons a as ih =>
    simp only [List.cons_append, seqApply]
    cases f m a with
    | error e => rfl
    | ok m' => exact ih m'

theorem seqApply_map {α β} (f : MState → β → Except Err MState) (g : α → β) (as : List α) (m : MState) :
    seqApply f m (as.map g) = seqApply (fun m a => f m (g a)) m as := by
  induction as generalizing m with
  | nil => rfl
  | cons a as ih =>
    simp only [List.map_cons, seqApply]
    cases f m (g a) with
    | error e => rfl
    | ok m' => exact ih m'

theorem seqApply_flatMap {α β} (f : MState → β → Except Err MState) (g : α → List β) (as : List α) (m : MState) :
    seqApply f m (as.flatMap g) = seqApply (fun m a => seqApply f m (g a)) m as := by
  induction as generalizing m with
  | nil => rfl
  | cons a as ih =>
    simp only [List.flatMap_cons, seqApply_append, seqApply]
    cases seqApply f m (g a) with
    | error e => rfl
    | ok m' => exact ih m'

/-- A reflexive and transitive relation established by each step is established by the sequence. -/
theorem seqApply_rel {α} {f : MState → α → Except Err MState} (R : MState → MState → Prop) (hr : ∀ m, R m m)
    (ht : ∀ a b c, R a b → R b c → R a c) {as : List α}
    (h : ∀ a ∈ as, ∀ m m', f m a = .ok m' → R m m') : ∀ m m', seqApply f m as = .ok m' → R m m' := by
  induction as with
  | nil => intro m m' he; simp [seqApply] at he; exact he ▸ hr m
  | cons a as ih =>
    intro m m' he
    simp only [seqApply] at he
    cases hf : f m a with
    | error e => simp [hf] at he
    | ok m1 =>
      simp only [hf] at he
      exact ht _ _ _ (h a (by simp) _ _ hf) (ih (fun b hb => h b (by simp [hb])) _ _ he)

theorem applyFuel_enough (L : MLang) (dom : Domains) (n : Nat) :
    ∀ k m e, edepth e ≤ n → n ≤ k → applyFuel L dom k m e = applyFuel L dom n m e := by
  induction n with
  | zero =>
    intro k m e hd _
    cases e with
    | univ c vs es => simp [edepth] at hd
    | _ => unfold applyFuel; rfl
  | succ n ih =>
    intro k m e hd hk
    cases e with
    | univ c vs es =>
      obtain ⟨k, rfl⟩ : ∃ j, k = j + 1 := ⟨k - 1, by omega⟩
      unfold applyFuel
      have : ∀ ss : List Subst,
          seqApply (fun m s => seqApply (fun m e => applyFuel L dom k m (subE s e)) m es) m ss =
          seqApply (fun m s => seqApply (fun m e => applyFuel L dom n m (subE s e)) m es) m ss := by
        intro ss
        refine seqApply_congr (fun s _ m => seqApply_congr (fun e he m => ih k m _ ?_ (by omega)) m) m
        rw [subE_depth]
        have := edepth_le he
        simp only [edepth] at hd
        omega
      simp only [this]
    | _ => unfold applyFuel; rfl

theorem applyFuel_eq (L : MLang) (dom : Domains) (n : Nat) (m : MState) (e : Effect) (h : edepth e ≤ n) :
    applyFuel L dom n m e = applyEffect L dom m e :=
  applyFuel_enough L dom (edepth e) n m e (Nat.le_refl _) h

/-- The recursion of `apply_effect` on universal effects. -/
theorem applyEffect_univ (L : MLang) (dom : Domains) (m : MState) (c : Formula) (vs : List Var) (es : List Effect) :
    applyEffect L dom m (.univ c vs es) =
      match evFormula L m noSigma c with
      | .error er => .error er
      | .ok false => .ok m
      | .ok true => match enumSubsts dom vs with
        | .error er => .error er
        | .ok ss => seqApply (fun m s => seqApply (fun m e => applyEffect L dom m (subE s e)) m es) m ss := by
  unfold applyEffect
  conv_lhs => unfold applyFuel
  simp only [Effect.cond, edepth]
  cases evFormula L m noSigma c with
  | error e => rfl
  | ok b =>
    cases b with
    | false => rfl
    | true =>
      simp only []
      cases enumSubsts dom vs with
      | error e => rfl
      | ok ss =>
        simp only []
        refine seqApply_congr (fun s _ m => seqApply_congr (fun e he m => ?_) m) m
        exact applyFuel_eq L dom _ m _ (by rw [subE_depth]; exact edepth_le he)

/-- Induction on effects where the hypothesis is available for every substitution instance of the sub-effects. -/
theorem Effect.induct {P : Effect → Prop} (hadd : ∀ c p ts, P (.add c p ts)) (hdel : ∀ c p ts, P (.del c p ts))
    (hlit : ∀ c l, P (.lit c l)) (hassign : ∀ c f ts r, P (.assign c f ts r))
    (huniv : ∀ c vs es, (∀ e ∈ es, ∀ s, P (subE s e)) → (∀ e ∈ es, P e) → P (.univ c vs es)) : ∀ e, P e := by
  suffices h : ∀ n e, edepth e ≤ n → P e from fun e => h _ e (Nat.le_refl _)
  intro n
  induction n with
  | zero =>
    intro e he
    cases e with
    | univ c vs es => simp [edepth] at he
    | add c p ts => exact hadd ..
    | del c p ts => exact hdel ..
    | lit c l => exact hlit ..
    | assign c f ts r => exact hassign ..
  | succ n ih =>
    intro e he
    cases e with
    | univ c vs es =>
      simp only [edepth] at he
      refine huniv c vs es (fun e hm s => ih _ ?_) (fun e hm => ih _ ?_)
      · rw [subE_depth]; have := edepth_le hm; omega
      · have := edepth_le hm; omega
    | add c p ts => exact hadd ..
    | del c p ts => exact hdel ..
    | lit c l => exact hlit ..
    | assign c f ts r => exact hassign ..

/-! ### Elementary changes -/

theorem wrapTuple_terms (ts : List Term) : ∃ r, wrapTuple (ts.map termArg) = .ok r := by
  induction ts with
  | nil => exact ⟨_, rfl⟩
  | cons t ts ih =>
    obtain ⟨r, hr⟩ := ih
    cases t <;> simp [termArg, wrapTuple, hr]

theorem domainsOf_length {dom vs ds} (h : domainsOf dom vs = .ok ds) : ds.length = vs.length := by
  induction vs generalizing ds with
  | nil => simp only [domainsOf, Except.ok.injEq] at h; subst h; simp
  | cons v vs ih =>
    simp only [domainsOf] at h
    cases h1 : dom v.sort with
    | error e => simp [h1] at h
    | ok d =>
      cases h2 : domainsOf dom vs with
      | error e => simp [h1, h2] at h
      | ok ds' => simp [h1, h2] at h; subst h; simp [ih h2]

theorem cart_consts' {ls : List (List Term)} (h : ∀ l ∈ ls, ∀ c ∈ l, ∃ n so, c = Term.const n so) :
    ∀ values ∈ cart ls, ∀ c ∈ values, ∃ n so, c = Term.const n so := by
  induction ls with
  | nil => simp [cart]
  | cons l ls ih =>
    intro values hv c hc
    simp only [cart, List.mem_flatMap, List.mem_map] at hv
    obtain ⟨x, hx, vs, hvs, rfl⟩ := hv
    rcases List.mem_cons.1 hc with rfl | hc
    · exact h l (by simp) _ hx
    · exact ih (fun l' hl' => h l' (by simp [hl'])) vs hvs c hc

theorem domainsOf_consts {dom vs ds} (hd : ConstDoms dom) (h : domainsOf dom vs = .ok ds) :
    ∀ l ∈ ds, ∀ c ∈ l, ∃ n so, c = Term.const n so := by
  induction vs generalizing ds with
  | nil => simp only [domainsOf, Except.ok.injEq] at h; subst h; simp
  | cons v vs ih =>
    simp only [domainsOf] at h
    cases h1 : dom v.sort with
    | error e => simp [h1] at h
    | ok d =>
      cases h2 : domainsOf dom vs with
      | error e => simp [h1, h2] at h
      | ok ds' =>
        simp [h1, h2] at h; subst h
        intro l hl
        rcases List.mem_cons.1 hl with rfl | hl
        · exact hd _ _ h1
        · exact ih h2 l hl

theorem enumSubsts_vals {dom vs ss} (hd : ConstDoms dom) (h : enumSubsts dom vs = .ok ss) :
    ∀ s ∈ ss, ValsConst s := by
  simp only [enumSubsts] at h
  cases h1 : domainsOf dom vs with
  | error e => simp [h1] at h
  | ok ds =>
    simp [h1] at h; subst h
    intro s hs
    obtain ⟨values, hv, rfl⟩ := List.mem_map.1 hs
    exact zip_valsConst (cart_consts' (domainsOf_consts hd h1) values hv)

end Tarski

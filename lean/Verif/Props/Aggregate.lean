import Verif.Aggregate
import Verif.QELemmas
import Verif.Props.Evaluator
import Mathlib.Tactic.Common
import Mathlib.Algebra.BigOperators.Group.List.Basic
/-! C82: sums and products over the objects of a language. -/
namespace Tarski

/-! ### Specification -/

/-- `sum over v1, ..., vn of val`, one variable after the other, each over the constants of its sort. -/
def sumOver {D} (I : Interp D) (objs : String → List (Name × String)) : List Var → (Asg D → Int) → Asg D → Int
  | [], val, σ => val σ
  | v :: vs, val, σ => ((objs v.sort).map fun c => sumOver I objs vs val (σ.set v (I.const c.1 c.2))).sum

/-- `product over v1, ..., vn of val`. -/
def prodOver {D} (I : Interp D) (objs : String → List (Name × String)) : List Var → (Asg D → Int) → Asg D → Int
  | [], val, σ => val σ
  | v :: vs, val, σ => ((objs v.sort).map fun c => prodOver I objs vs val (σ.set v (I.const c.1 c.2))).prod

/-- `objs` lists the constants of the sorts of `vs` as the language does. -/
def ListsDomains (dom : Domains) (objs : String → List (Name × String)) (vs : List Var) : Prop :=
  ∀ v ∈ vs, dom v.sort = .ok ((objs v.sort).map fun c => .const c.1 c.2)

/-- The assignments that `sumOver` evaluates the expression under. -/
def Instance {D} (I : Interp D) (objs : String → List (Name × String)) (vs : List Var) (σ τ : Asg D) : Prop :=
  (∀ v ∈ vs, ∃ c ∈ objs v.sort, τ v = I.const c.1 c.2) ∧ ∀ v, v ∉ vs → τ v = σ v

/-! ### Lemmas -/

theorem enumLoop_objs {dom : Domains} {objs : String → List (Name × String)} (vs : List Var) (h : ListsDomains dom objs vs) :
    enumLoop dom (vs.map Term.var) = .ok (((vs.map fun v => (objs v.sort).length)).prod,
      vs.map fun v => (objs v.sort).map fun c => .const c.1 c.2) := by
  induction vs with
  | nil => rfl
  | cons v vs ih =>
    simp only [List.map_cons, enumLoop]
    rw [h v (by simp)]
    dsimp only
    rw [ih (fun w hw => h w (by simp [hw]))]
    simp

theorem cart_all_const (ls : List (List Term)) (h : ∀ l ∈ ls, ∀ t ∈ l, ∃ n so, t = Term.const n so) :
    ∀ values ∈ cart ls, ∀ t ∈ values, ∃ n so, t = Term.const n so := by
  induction ls with
  | nil => intro values hv; simp [cart] at hv; subst hv; simp
  | cons l ls ihl =>
    intro values hv t ht
    simp only [cart, List.mem_flatMap, List.mem_map] at hv
    obtain ⟨x, hx, vals, hvals, rfl⟩ := hv
    rcases List.mem_cons.1 ht with rfl | ht
    · exact h l (by simp) _ hx
    · exact ihl (fun l hl => h l (by simp [hl])) vals hvals t ht

theorem objs_const {objs : String → List (Name × String)} (vs : List Var) :
    ∀ values ∈ cart (vs.map fun v => (objs v.sort).map fun c => Term.const c.1 c.2), ∀ t ∈ values, ∃ n so, t = Term.const n so := by
  refine cart_all_const _ ?_
  intro l hl t ht
  obtain ⟨w, -, rfl⟩ := List.mem_map.1 hl
  obtain ⟨c, -, rfl⟩ := List.mem_map.1 ht
  exact ⟨_, _, rfl⟩

/-- Folding an associative operation over the instances, in the order of `itertools.product`. -/
theorem fold_cart {D} (I : Interp D) (objs : String → List (Name × String)) (op : List Int → Int)
    (hop : ∀ ls : List (List Int), op ls.flatten = op (ls.map op)) (hone : ∀ x, op [x] = x)
    (nest : List Var → (Asg D → Int) → Asg D → Int)
    (h0 : ∀ val σ, nest [] val σ = val σ)
    (h1 : ∀ v vs val σ, nest (v :: vs) val σ = op ((objs v.sort).map fun c => nest vs val (σ.set v (I.const c.1 c.2))))
    (vs : List Var) (val : Asg D → Int) : ∀ σ, nest vs val σ =
      op ((cart (vs.map fun v => (objs v.sort).map fun c => Term.const c.1 c.2)).map
        fun values => val (updAsg I (createSubst (vs.map Term.var) values) σ)) := by
  induction vs with
  | nil =>
    intro σ
    have : updAsg I (createSubst [] []) σ = σ := by
      funext v; simp [updAsg, createSubst, Subst.visit, Subst.get?, evalT]
    simp [h0, cart, hone, this]
  | cons v vs ih =>
    intro σ
    rw [h1]
    simp only [List.map_cons, cart, List.flatMap_map, List.map_flatMap, List.map_map]
    rw [List.flatMap_def, hop, List.map_map]
    congr 1
    apply List.map_congr_left
    intro c hc
    simp only [Function.comp]
    rw [ih]
    congr 1
    apply List.map_congr_left
    intro values hv
    simp only [Function.comp, createSubst, List.zip_cons_cons]
    congr 1
    refine (updAsg_cons I v c.1 c.2 _ ?_ σ).symm
    apply zip_valsConst (vs := vs.map Term.var)
    exact objs_const vs values hv

theorem instance_of_cart {D} (I : Interp D) (objs : String → List (Name × String)) (vs : List Var) : ∀ σ,
    ∀ values ∈ cart (vs.map fun v => (objs v.sort).map fun c => Term.const c.1 c.2),
      Instance I objs vs σ (updAsg I (createSubst (vs.map Term.var) values) σ) := by
  induction vs with
  | nil =>
    intro σ values hv
    simp [cart] at hv
    subst hv
    exact ⟨by simp, fun v _ => by simp [updAsg, createSubst, Subst.visit, Subst.get?, evalT]⟩
  | cons v vs ih =>
    intro σ values hv
    simp only [List.map_cons, cart, List.mem_flatMap, List.mem_map] at hv
    obtain ⟨x, ⟨c, hc, rfl⟩, vals, hvals, rfl⟩ := hv
    have e : updAsg I (createSubst ((v :: vs).map Term.var) (Term.const c.1 c.2 :: vals)) σ =
        updAsg I (createSubst (vs.map Term.var) vals) (σ.set v (I.const c.1 c.2)) :=
      updAsg_cons I v c.1 c.2 _ (zip_valsConst (vs := vs.map Term.var) (objs_const vs vals hvals)) σ
    rw [e]
    obtain ⟨i1, i2⟩ := ih (σ.set v (I.const c.1 c.2)) vals hvals
    constructor
    · intro w hw
      by_cases hm : w ∈ vs
      · exact i1 w hm
      · rcases List.mem_cons.1 hw with rfl | h
        · exact ⟨c, hc, by rw [i2 w hm]; simp [Asg.set]⟩
        · exact absurd h hm
    · intro w hw
      simp only [List.mem_cons, not_or] at hw
      rw [i2 w hw.2]
      simp [Asg.set, hw.1]

theorem chain_num {D} (I : Interp D) (A : AggLang) (op : String) (f : Int → Int → Int) (IsNum : D → Int → Prop)
    (hop : ∀ a b x y, IsNum a x → IsNum b y → IsNum (I.fn op [a, b]) (f x y)) (σ : Asg D) (ts : List Term) :
    ∀ (xs : List Int) (t r : Term) (x : Int), List.Forall₂ (fun t x => IsNum (evalT I t σ) x) ts xs → IsNum (evalT I t σ) x →
      A.chain op t ts = .ok r → IsNum (evalT I r σ) (xs.foldl f x) := by
  induction ts with
  | nil => intro xs t r x h ht hr; cases h; cases hr; exact ht
  | cons u us ih =>
    intro xs t r x h ht hr
    cases h with
    | cons hu hus =>
      simp only [AggLang.chain, AggLang.dispatch] at hr
      split at hr
      · cases hr
      · rename_i r' hd
        split at hd
        · cases hd
        · split at hd
          · cases hd
            rw [List.foldl_cons]
            refine ih _ _ _ _ hus ?_ hr
            simp only [evalT, evalTs]
            exact hop _ _ _ _ ht hu
          · cases hd

theorem asTerm_vars (vs : List Var) : (vs.map fun v => AggArg.term (.var v)).filterMap AggArg.asTerm = vs.map Term.var := by
  induction vs with
  | nil => rfl
  | cons v vs ih => rw [List.map_cons, List.filterMap_cons, ih]; rfl

theorem aggregate_eq {dom : Domains} {A : AggLang} {op : String} {vs : List Var} {e : Term}
    {objs : String → List (Name × String)} (hd : ListsDomains dom objs vs) :
    aggregate dom A op (vs.map (fun v => .term (.var v)) ++ [.term e]) =
      match (cart (vs.map fun v => (objs v.sort).map fun c => Term.const c.1 c.2)).map
        (fun values => subT (createSubst (vs.map Term.var) values) e) with
      | [] => .error .index
      | u :: us => A.chain op u us := by
  unfold aggregate
  simp only [List.getLast?_append, List.getLast?_singleton, Option.some_or, List.dropLast_concat]
  rw [if_neg (by simp [AggArg.isVar])]
  simp only [asTerm_vars, enumerateGroundings, enumLoop_objs vs hd]
  rfl

theorem aggregate_ok {dom : Domains} {A : AggLang} {op : String} {vs : List Var} {e t : Term}
    {objs : String → List (Name × String)} (hd : ListsDomains dom objs vs)
    (h : aggregate dom A op (vs.map (fun v => .term (.var v)) ++ [.term e]) = .ok t) :
    ∃ u us, (cart (vs.map fun v => (objs v.sort).map fun c => Term.const c.1 c.2)).map
      (fun values => subT (createSubst (vs.map Term.var) values) e) = u :: us ∧ A.chain op u us = .ok t := by
  rw [aggregate_eq hd] at h
  split at h
  · cases h
  · rename_i u us hu
    exact ⟨u, us, hu, h⟩

theorem aggregate_num {D} {dom : Domains} {A : AggLang} {op : String} {vs : List Var} {e t : Term}
    {objs : String → List (Name × String)} (hd : ListsDomains dom objs vs)
    (h : aggregate dom A op (vs.map (fun v => .term (.var v)) ++ [.term e]) = .ok t)
    (hb : VarBindersT e) (hf : ∀ v ∈ vs, ¬ BoundT v e)
    (I : Interp D) (IsNum : D → Int → Prop) (f : Int → Int → Int)
    (hop : ∀ a b x y, IsNum a x → IsNum b y → IsNum (I.fn op [a, b]) (f x y))
    (val : Asg D → Int) (σ : Asg D) (hval : ∀ τ, Instance I objs vs σ τ → IsNum (evalT I e τ) (val τ)) :
    ∃ x xs, (cart (vs.map fun v => (objs v.sort).map fun c => Term.const c.1 c.2)).map
        (fun values => val (updAsg I (createSubst (vs.map Term.var) values) σ)) = x :: xs ∧
      IsNum (evalT I t σ) (xs.foldl f x) := by
  obtain ⟨u, us, hu, hc⟩ := aggregate_ok hd h
  have hsub : ∀ values ∈ cart (vs.map fun v => (objs v.sort).map fun c => Term.const c.1 c.2),
      IsNum (evalT I (subT (createSubst (vs.map Term.var) values) e) σ)
        (val (updAsg I (createSubst (vs.map Term.var) values) σ)) := by
    intro values hv
    have hk : KeysVar (createSubst (vs.map Term.var) values) := zip_keysVar (by simp)
    have hcs : ValsConst (createSubst (vs.map Term.var) values) := zip_valsConst (objs_const vs values hv)
    rw [subT_sem I hk e hb (fun v hv => fresh_const hcs (fun kv hkv he => ?_)) σ]
    · exact hval _ (instance_of_cart I objs vs σ values hv)
    · have := (List.of_mem_zip hkv).1
      rw [he] at this
      simp only [List.mem_map, Term.var.injEq, exists_eq_right] at this
      exact hf v this hv
  have key : ∀ l : List (List Term), (∀ values ∈ l, values ∈ cart (vs.map fun v => (objs v.sort).map fun c => Term.const c.1 c.2)) →
      List.Forall₂ (fun t x => IsNum (evalT I t σ) x) (l.map fun values => subT (createSubst (vs.map Term.var) values) e)
        (l.map fun values => val (updAsg I (createSubst (vs.map Term.var) values) σ)) := by
    intro l
    induction l with
    | nil => intro _; exact .nil
    | cons a l ih => intro hl; exact .cons (hsub a (hl a (by simp))) (ih fun v hv => hl v (by simp [hv]))
  have hall := key _ (fun _ h => h)
  rw [hu] at hall
  generalize hx : (cart (vs.map fun v => (objs v.sort).map fun c => Term.const c.1 c.2)).map
        (fun values => val (updAsg I (createSubst (vs.map Term.var) values) σ)) = l at hall ⊢
  cases hall with
  | cons h1 h2 => exact ⟨_, _, rfl, chain_num I A op f IsNum hop σ _ _ _ _ _ h2 h1 hc⟩

/-! ### C82 -/

/-- C82: the value of the term that `summation(x1, ..., xn, e)` returns is the sum of the values of `e` over all objects of
the sorts of the variables. `IsNum d x` says that the object `d` is the number `x`; the variables must not be quantified
inside `e`. -/
theorem C82_summation (dom : Domains) (A : AggLang) (vs : List Var) (e t : Term) (objs : String → List (Name × String))
    (hd : ListsDomains dom objs vs) (h : summation dom A (vs.map (fun v => .term (.var v)) ++ [.term e]) = .ok t)
    (hb : VarBindersT e) (hf : ∀ v ∈ vs, ¬ BoundT v e) (D : Type) (I : Interp D) (IsNum : D → Int → Prop)
    (hop : ∀ a b x y, IsNum a x → IsNum b y → IsNum (I.fn "+" [a, b]) (x + y))
    (val : Asg D → Int) (σ : Asg D) (hval : ∀ τ, Instance I objs vs σ τ → IsNum (evalT I e τ) (val τ)) :
    IsNum (evalT I t σ) (sumOver I objs vs val σ) := by
  obtain ⟨x, xs, hx, hn⟩ := aggregate_num hd h hb hf I IsNum (· + ·) hop val σ hval
  rw [fold_cart I objs List.sum (fun ls => by rw [List.sum_flatten]) (by simp) (sumOver I objs) (fun _ _ => rfl)
    (fun _ _ _ _ => rfl) vs val σ, hx]
  have : ∀ (xs : List Int) (x : Int), xs.foldl (· + ·) x = (x :: xs).sum := by
    intro xs
    induction xs with
    | nil => intro x; simp
    | cons y ys ih => intro x; rw [List.foldl_cons, ih]; simp [Int.add_assoc]
  rw [← this]
  exact hn

/-- C82: the same for `product`. -/
theorem C82_product (dom : Domains) (A : AggLang) (vs : List Var) (e t : Term) (objs : String → List (Name × String))
    (hd : ListsDomains dom objs vs) (h : product dom A (vs.map (fun v => .term (.var v)) ++ [.term e]) = .ok t)
    (hb : VarBindersT e) (hf : ∀ v ∈ vs, ¬ BoundT v e) (D : Type) (I : Interp D) (IsNum : D → Int → Prop)
    (hop : ∀ a b x y, IsNum a x → IsNum b y → IsNum (I.fn "*" [a, b]) (x * y))
    (val : Asg D → Int) (σ : Asg D) (hval : ∀ τ, Instance I objs vs σ τ → IsNum (evalT I e τ) (val τ)) :
    IsNum (evalT I t σ) (prodOver I objs vs val σ) := by
  obtain ⟨x, xs, hx, hn⟩ := aggregate_num hd h hb hf I IsNum (· * ·) hop val σ hval
  rw [fold_cart I objs List.prod (fun ls => by rw [List.prod_flatten]) (by simp) (prodOver I objs) (fun _ _ => rfl)
    (fun _ _ _ _ => rfl) vs val σ, hx]
  have : ∀ (xs : List Int) (x : Int), xs.foldl (· * ·) x = (x :: xs).prod := by
    intro xs
    induction xs with
    | nil => intro x; simp
    | cons y ys ih => intro x; rw [List.foldl_cons, ih]; simp [Int.mul_assoc]
  rw [← this]
  exact hn

/-- C82: what the evaluator of the library makes of the sum in a state: if it returns, it returns the sum. -/
theorem C82_evaluate (L : MLang) (m : MState) (I : Interp Const) (hI : Describes L m I)
    (dom : Domains) (A : AggLang) (vs : List Var) (e t : Term) (objs : String → List (Name × String))
    (hd : ListsDomains dom objs vs) (h : summation dom A (vs.map (fun v => .term (.var v)) ++ [.term e]) = .ok t)
    (hb : VarBindersT e) (hf : ∀ v ∈ vs, ¬ BoundT v e) (ht : TermOK (fun _ => True) t)
    (val : Asg Const → Int) (σ : Asg Const)
    (hval : ∀ τ, Instance I objs vs σ τ → ∃ s, evalT I e τ = ⟨.int (val τ), s⟩)
    (sigma : Var → Except Err Const) (hs : ∀ v c, sigma v = .ok c → σ v = c) (c : Const)
    (hc : evTerm L m sigma .eval t = .ok c) : c.name = .int (sumOver I objs vs val σ) := by
  have h1 := C17_sound_term L m I hI t ht sigma σ hs c hc
  obtain ⟨s, h2⟩ := C82_summation dom A vs e t objs hd h hb hf Const I (fun d x => ∃ s, d = ⟨.int x, s⟩)
    (by rintro a b x y ⟨s, rfl⟩ ⟨s', rfl⟩; exact ⟨_, hI.add x y s s'⟩) val σ hval
  rw [← h1, h2]

theorem chain_ok_iff (A : AggLang) (op : String) (ha : ∀ ts, A.numeric (.app op ts) = true) (us : List Term) : ∀ u,
    (∃ r, A.chain op u us = .ok r) ↔ us = [] ∨ A.loaded = true ∧ ∀ x ∈ u :: us, A.numeric x = true := by
  induction us with
  | nil => intro u; simp [AggLang.chain]
  | cons x xs ih =>
    intro u
    simp only [AggLang.chain, AggLang.dispatch]
    by_cases hl : A.loaded = true
    · by_cases hn : A.numeric u = true ∧ A.numeric x = true
      · rw [if_neg (by simp [hl]), if_pos hn]
        dsimp only
        rw [ih]
        simp only [List.mem_cons, forall_eq_or_imp, ha, hn.1, hn.2, hl, true_and, reduceCtorEq, false_or]
        constructor
        · rintro (rfl | h)
          · simp
          · exact h
        · exact .inr
      · rw [if_neg (by simp [hl]), if_neg hn]
        simp only [List.mem_cons, forall_eq_or_imp, reduceCtorEq, exists_false, false_or, false_iff]
        rintro ⟨-, h1, h2, -⟩
        exact hn ⟨h1, h2⟩
    · rw [if_pos (by simp [hl])]
      simp [hl]

/-- C82: when the call returns: no domain may be empty, and with more than one instance the arithmetic operator must be
available and the instances numeric. -/
theorem C82_returns_iff (dom : Domains) (A : AggLang) (op : String) (vs : List Var) (e : Term) (objs : String → List (Name × String))
    (hd : ListsDomains dom objs vs) (ha : ∀ ts, A.numeric (.app op ts) = true) :
    (∃ t, aggregate dom A op (vs.map (fun v => .term (.var v)) ++ [.term e]) = .ok t) ↔
      (∀ v ∈ vs, objs v.sort ≠ []) ∧ ((∀ v ∈ vs, (objs v.sort).length = 1) ∨ A.loaded = true ∧
        ∀ values ∈ cart (vs.map fun v => (objs v.sort).map fun c => Term.const c.1 c.2),
          A.numeric (subT (createSubst (vs.map Term.var) values) e) = true) := by
  have hlen : ((cart (vs.map fun v => (objs v.sort).map fun c => Term.const c.1 c.2))).length =
      (vs.map fun v => (objs v.sort).length).prod := by
    rw [cart_length, List.map_map]
    congr 1
    apply List.map_congr_left
    intro v _
    simp
  have hz : ∀ vs : List Var, (vs.map fun v => (objs v.sort).length).prod = 0 ↔ ∃ v ∈ vs, objs v.sort = [] := by
    intro vs
    induction vs with
    | nil => simp
    | cons v vs ih => rw [List.map_cons, List.prod_cons, Nat.mul_eq_zero, ih]; simp
  have ho : ∀ vs : List Var, (vs.map fun v => (objs v.sort).length).prod = 1 ↔ ∀ v ∈ vs, (objs v.sort).length = 1 := by
    intro vs
    induction vs with
    | nil => simp
    | cons v vs ih => rw [List.map_cons, List.prod_cons, show ∀ a b : Nat, a * b = 1 ↔ a = 1 ∧ b = 1 from fun a b => ⟨fun h => ⟨Nat.eq_one_of_mul_eq_one_right h, Nat.eq_one_of_mul_eq_one_left h⟩, fun ⟨h1, h2⟩ => by rw [h1, h2]⟩, ih]; simp
  rw [aggregate_eq hd]
  generalize hl : cart (vs.map fun v => (objs v.sort).map fun c => Term.const c.1 c.2) = l at hlen
  cases l with
  | nil =>
    obtain ⟨v, hv, he⟩ := (hz vs).1 (by rw [← hlen]; rfl)
    simp only [List.map_nil]
    constructor
    · rintro ⟨_, h⟩; cases h
    · intro h; exact absurd he (h.1 v hv)
  | cons x xs =>
    have hne : ∀ v ∈ vs, objs v.sort ≠ [] := fun v hv he => by
      have := (hz vs).2 ⟨v, hv, he⟩
      rw [← hlen] at this
      simp at this
    simp only [List.map_cons]
    rw [chain_ok_iff A op ha, ← ho vs, ← hlen]
    simp only [List.map_eq_nil_iff, List.length_cons, Nat.add_eq_right, List.length_eq_zero_iff, List.mem_map,
      forall_exists_index, and_imp, forall_apply_eq_imp_iff₂, List.mem_cons, forall_eq_or_imp]
    exact ⟨fun h => ⟨hne, h⟩, fun h => h.2⟩

/-- C82: over a sort without objects the call raises IndexError (for the empty sum, one expects zero). -/
theorem C82_empty (dom : Domains) (A : AggLang) (op : String) (vs : List Var) (e : Term) (objs : String → List (Name × String))
    (hd : ListsDomains dom objs vs) (v : Var) (hv : v ∈ vs) (h0 : objs v.sort = []) :
    aggregate dom A op (vs.map (fun v => .term (.var v)) ++ [.term e]) = .error .index := by
  rw [aggregate_eq hd]
  have : cart (vs.map fun v => (objs v.sort).map fun c => Term.const c.1 c.2) = [] := by
    have key : ∀ ls : List (List Term), [] ∈ ls → cart ls = [] := by
      intro ls
      induction ls with
      | nil => simp
      | cons l ls ih =>
        intro h
        rcases List.mem_cons.1 h with h | h
        · rw [← h]; rfl
        · simp [cart, ih h]
    exact key _ (List.mem_map.2 ⟨v, hv, by simp [h0]⟩)
  rw [this]
  rfl

/-- C82: without variables `summation` and `product` return the expression itself; `sumterm` and `prodterm` refuse. -/
theorem C82_no_variables (dom : Domains) (A : AggLang) (op : String) (e : Term) :
    (∃ e', aggregate dom A op [.term e] = .ok e' ∧ ∀ (D : Type) (I : Interp D) σ, VarBindersT e → evalT I e' σ = evalT I e σ) ∧
    aggTerm op [.term e] = .error .syntactic := by
  refine ⟨⟨subT [] e, rfl, ?_⟩, rfl⟩
  intro D I σ hb
  rw [subT_sem I (by intro kv hkv; cases hkv) e hb (by intro v _ kv hkv; cases hkv) σ]
  congr 1

/-- C82: arguments. All four functions take variables and a term, in this order, and raise SyntacticError for anything
else; `sumterm` and `prodterm` need at least one variable and keep the arguments as they are. -/
theorem C82_arguments (dom : Domains) (A : AggLang) (op : String) (args : List AggArg) (last : AggArg) :
    ((∃ x ∈ args, ∀ v, x ≠ .term (.var v)) ∨ last = .other →
      aggregate dom A op (args ++ [last]) = .error .syntactic ∧ aggTerm op (args ++ [last]) = .error .syntactic) ∧
    (∀ vs e, args = vs.map (fun v => .term (.var v)) → vs ≠ [] → last = .term e →
      aggTerm op (args ++ [last]) = .ok ⟨op, vs.map Term.var, e⟩) ∧
    aggregate dom A op [] = .error .index ∧ aggTerm op [] = .error .index := by
  refine ⟨?_, ?_, rfl, rfl⟩
  · intro h
    have hall : (∃ x ∈ args, ∀ v, x ≠ .term (.var v)) → args.all AggArg.isVar = false := by
      rintro ⟨x, hx, hv⟩
      rw [List.all_eq_false]
      refine ⟨x, hx, ?_⟩
      cases x with
      | other => simp [AggArg.isVar]
      | term t =>
        cases t with
        | var v => exact absurd rfl (hv v)
        | _ => simp [AggArg.isVar]
    unfold aggregate aggTerm
    simp only [List.getLast?_append, List.getLast?_singleton, Option.some_or, List.dropLast_concat]
    rcases h with h | rfl
    · rw [hall h]
      cases last with
      | other => exact ⟨rfl, by split <;> rfl⟩
      | term t => exact ⟨rfl, by split <;> rfl⟩
    · exact ⟨rfl, by split; · rfl
                     · split <;> rfl⟩
  · rintro vs e rfl hne rfl
    unfold aggTerm
    simp only [List.getLast?_append, List.getLast?_singleton, Option.some_or, List.dropLast_concat]
    rw [if_neg (by cases vs with | nil => exact absurd rfl hne | cons => simp), if_neg (by simp [AggArg.isVar]), asTerm_vars]

/-! ### Examples -/

def aggDom : Domains := fun s => if s = "o" then .ok [.const (.str "a") "o", .const (.str "b") "o"] else .ok []
def aggObjs : String → List (Name × String) := fun s => if s = "o" then [(.str "a", "o"), (.str "b", "o")] else []
def aggLang : AggLang := ⟨true, fun _ => true⟩
def aggV : Var := ⟨"x", "o"⟩
def aggE : Term := .app "cost" [.var aggV]

/-- `summation(x, cost(x))` over two objects is `cost(a) + cost(b)`; all hypotheses above are met. -/
example : summation aggDom aggLang [.term (.var aggV), .term aggE] =
      .ok (.app "+" [.app "cost" [.const (.str "a") "o"], .app "cost" [.const (.str "b") "o"]]) ∧
    ListsDomains aggDom aggObjs [aggV] ∧ VarBindersT aggE ∧ (∀ v ∈ [aggV], ¬ BoundT v aggE) := by
  refine ⟨rfl, ?_, ?_, ?_⟩
  · intro v hv; rw [List.mem_singleton] at hv; subst hv; rfl
  · simp [aggE, VarBindersT, VarBindersTs]
  · simp [aggE, BoundT, BoundTs]

/-- With `cost(a) = 3` and `cost(b) = 4` the sum is 7 and the product 12. -/
example : sumOver (D := Int) ⟨fun n _ => if n = .str "a" then 3 else 4, fun _ _ => 0, fun _ _ => False, fun _ _ => True⟩
    aggObjs [aggV] (fun τ => τ aggV) (fun _ => 0) = 7 ∧
  prodOver (D := Int) ⟨fun n _ => if n = .str "a" then 3 else 4, fun _ _ => 0, fun _ _ => False, fun _ _ => True⟩
    aggObjs [aggV] (fun τ => τ aggV) (fun _ => 0) = 12 := by decide
end Tarski

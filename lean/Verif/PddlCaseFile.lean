import Verif.PddlCaseEff
/-! Lemmas: the case of the letters, in declarations and files. -/
namespace Tarski

attribute [local simp] lowerS_idem

theorem readNamesGo_lower (obj : Bool) (n : Nat) : ∀ (xs : List SX), xs.length ≤ n → ∀ pend so,
    readNamesGo obj pend so (lowerL xs) = readNamesGo obj pend so xs := by
  induction n with
  | zero => intro xs h pend so; cases xs with
    | nil => simp
    | cons x xs => simp at h
  | succ n ih =>
    intro xs h pend so
    cases xs with
    | nil => simp
    | cons x xs =>
      have e := ih xs (by simp at h; omega)
      cases x with
      | list zs => simp [readNamesGo]
      | tok t =>
        cases t with
        | name s => simp [readNamesGo, e]
        | kw k => cases k <;> simp [readNamesGo, e]
        | dash =>
          cases xs with
          | nil => simp [readNamesGo]
          | cons ty ys =>
            have e2 := ih ys (by simp at h; omega)
            simp [readNamesGo, readTypename_lower, e2]
        | _ => simp [readNamesGo]

theorem readNames_lower (obj : Bool) (xs : List SX) : readNames obj (lowerL xs) = readNames obj xs := by
  simp [readNames, readNamesGo_lower obj _ xs (Nat.le_refl _)]

theorem readTypes_lower (D : PDecls) (xs : List SX) : readTypes D (lowerL xs) = readTypes D xs := by
  simp [readTypes, readNames_lower]

theorem readObjects_lower (D : PDecls) (xs : List SX) : readObjects D (lowerL xs) = readObjects D xs := by
  simp [readObjects, readNames_lower]

theorem readPredDecl_lower (D : PDecls) (x : SX) : readPredDecl D x.lower = readPredDecl D x := by
  cases x with
  | tok t => simp [readPredDecl]
  | list xs =>
    match xs with
    | [] => simp
    | .list zs :: ys => simp [readPredDecl]
    | .tok t :: ys => cases t <;> simp [readPredDecl, readVarsList_lower]

theorem readPredDecls_lower (D : PDecls) (xs : List SX) : readPredDecls D (lowerL xs) = readPredDecls D xs := by
  induction xs generalizing D with
  | nil => simp
  | cons x xs ih => simp [readPredDecls, readPredDecl_lower, ih]

theorem actionName_lower (t : PTok) : actionName t.lower = (actionName t).map lowerS := by
  cases t <;> simp [actionName]

theorem readFunDecl_lower (D : PDecls) (x : SX) (s) : readFunDecl D x.lower s = readFunDecl D x s := by
  cases x with
  | tok t => simp [readFunDecl]
  | list xs =>
    match xs with
    | [] => simp
    | .list zs :: ys => simp [readFunDecl]
    | .tok t :: ys => cases t <;> simp [readFunDecl, actionName, readVarsList_lower]

theorem readFunDecls_lower (n : Nat) : ∀ (xs : List SX), xs.length ≤ n → ∀ D,
    readFunDecls D (lowerL xs) = readFunDecls D xs := by
  induction n with
  | zero => intro xs h D; cases xs with
    | nil => simp
    | cons x xs => simp at h
  | succ n ih =>
    intro xs h D
    cases xs with
    | nil => simp
    | cons x xs =>
      have e := ih xs (by simp at h; omega)
      match xs with
      | [] => simp [readFunDecls, readFunDecl_lower]
      | [y] =>
        have q := fun D => readFunDecl_lower D y "number"
        cases y <;> (simp only [lower_tok, lower_list] at q; simp [readFunDecls, readFunDecl_lower, q])
      | .list zs :: y :: ys =>
        simp only [lowerL_cons, lower_list] at e ⊢
        simp [readFunDecls, readFunDecl_lower, e]
      | .tok t :: y :: ys =>
        have e2 := ih ys (by simp at h; omega)
        simp only [lowerL_cons, lower_tok] at e ⊢
        cases t <;> (simp only [PTok.lower] at e ⊢; simp [readFunDecls, readFunDecl_lower, readTypename_lower, e, e2])

theorem isKey_lower (x : SX) : isKey x.lower = isKey x := by
  cases x with
  | list xs => simp [isKey]
  | tok t => cases t <;> simp [isKey]

theorem isCosts_lower (x : SX) : isCosts x.lower = isCosts x := by
  cases x with
  | list xs => simp [isCosts]
  | tok t => cases t <;> simp [isCosts]

theorem isFluents_lower (x : SX) : isFluents x.lower = isFluents x := by
  cases x with
  | list xs => simp [isFluents]
  | tok t => cases t <;> simp [isFluents]

theorem readRequire_lower (D : PDecls) (xs : List SX) : readRequire D (lowerL xs) = readRequire D xs := by
  unfold readRequire
  rw [all_lowerL isKey isKey_lower, any_lowerL isCosts isCosts_lower, any_lowerL isFluents isFluents_lower]

theorem secOf_lower (k : CKw) (x : SX) : secOf k x.lower = (secOf k x).map lowerL := by
  cases x with
  | tok t => simp [secOf]
  | list xs =>
    match xs with
    | [] => simp [secOf]
    | .list zs :: ys => simp [secOf]
    | .tok t :: ys =>
      cases t <;> simp [secOf]

theorem readSec_lower (k : CKw) (f : PDecls → List SX → Except Err PDecls) (hf : ∀ D xs, f D (lowerL xs) = f D xs)
    (D : PDecls) (xs : List SX) : readSec k f D (lowerL xs) = (readSec k f D xs).map (fun r => (r.1, lowerL r.2)) := by
  cases xs with
  | nil => simp [readSec, Except.map]
  | cons x xs =>
    simp only [lowerL_cons, readSec, secOf_lower]
    cases secOf k x with
    | none => simp [Except.map]
    | some zs =>
      simp only [Option.map_some, hf]
      cases f D zs <;> simp [Except.map]

/-- An action with its name in lower case. -/
def PAction.lowerName (a : PAction) : PAction := { a with name := lowerS a.name }

theorem readAction_lower (L : RLang) (x : SX) : readAction L x.lower = (readAction L x).map PAction.lowerName := by
  unfold readAction
  split
  · rename_i nm vs p e heq
    simp only [xle_list, lle_cons, xle_tok, lle_nil, tle_ckw] at heq
    obtain ⟨-, rfl, -, -, rfl, ⟨-, rfl, rfl⟩, -, -, rfl, ⟨nm, rfl, rfl⟩, -, -, rfl, ⟨-, rfl, rfl⟩, -, -, rfl, ⟨vs, rfl, rfl⟩,
      -, -, rfl, ⟨-, rfl, rfl⟩, p, -, rfl, rfl, -, -, rfl, ⟨-, rfl, rfl⟩, e, -, rfl, rfl, rfl⟩ := heq
    dsimp only
    rw [actionName_lower, readVarsList_lower]
    cases actionName nm with
    | none => rfl
    | some s =>
      dsimp only [Option.map_some]
      cases readVarsList L vs with
      | error e => rfl
      | ok vs =>
        dsimp only
        rw [readPre_lower, readEff_lower]
        cases readPre L (some (VBinding.ofList vs)) p with
        | error e => rfl
        | ok pre =>
          dsimp only
          cases readEff L (some (VBinding.ofList vs)) true e with
          | error e => rfl
          | ok es =>
            dsimp only
            cases splitCosts es with
            | error e => rfl
            | ok r =>
              obtain ⟨simple, costs⟩ := r
              match costs with
              | [] => rfl
              | [t] => rfl
              | _ :: _ :: _ => rfl
  · rename_i hne
    split
    · rename_i nm vs p e
      exact absurd (by simp) (hne nm.lower (lowerL vs) p.lower e.lower)
    · rfl

theorem sameName_lower (as : List PAction) (a : PAction) (h : as.any (fun b => b.name == a.name) = true) :
    (as.map PAction.lowerName).any (fun b => b.name == a.lowerName.name) = true := by
  simp only [List.any_eq_true, beq_iff_eq] at h ⊢
  obtain ⟨b, hb, e⟩ := h
  exact ⟨b.lowerName, List.mem_map_of_mem hb, by simp [PAction.lowerName, e]⟩

theorem readStructures_up (D : PDecls) (xs : List SX) : ∀ (as bs : List PAction),
    readStructures D (as.map PAction.lowerName) (lowerL xs) = .ok bs →
    ∃ cs, readStructures D as xs = .ok cs ∧ bs = cs.map PAction.lowerName := by
  induction xs with
  | nil => intro as bs h; simp [readStructures] at h ⊢; exact h.symm
  | cons x xs ih =>
    intro as bs h
    simp only [lowerL_cons, readStructures, secOf_lower, readAction_lower] at h ⊢
    cases hs : secOf .action x with
    | none => simp [hs] at h
    | some z =>
      simp only [hs, Option.map_some] at h ⊢
      cases ha : readAction D.rlang x with
      | error e => simp [ha, Except.map] at h
      | ok a =>
        simp only [ha, Except.map] at h ⊢
        by_cases hc : (as.map PAction.lowerName).any (fun b => b.name == a.lowerName.name) = true
        · rw [if_pos hc] at h; cases h
        · rw [if_neg hc] at h
          rw [if_neg (fun hn => hc (sameName_lower as a hn))]
          exact ih (as ++ [a]) bs (by simpa using h)

theorem readStructures_names (D : PDecls) (xs : List SX) : ∀ (as cs : List PAction),
    readStructures D as xs = .ok cs → as <+: cs := by
  induction xs with
  | nil => intro as cs h; simp [readStructures] at h; subst h; exact List.prefix_rfl
  | cons x xs ih =>
    intro as cs h
    simp only [readStructures] at h
    (repeat' split at h) <;> first | cases h | exact (List.prefix_append _ _).trans (ih _ _ h)

theorem readStructures_down (D : PDecls) (xs : List SX) : ∀ (as cs : List PAction),
    readStructures D as xs = .ok cs → (cs.map (fun a => lowerS a.name)).Nodup →
    readStructures D (as.map PAction.lowerName) (lowerL xs) = .ok (cs.map PAction.lowerName) := by
  induction xs with
  | nil => intro as cs h _; simp [readStructures] at h ⊢; rw [h]
  | cons x xs ih =>
    intro as cs h hn
    simp only [lowerL_cons, readStructures, secOf_lower, readAction_lower] at h ⊢
    cases hs : secOf .action x with
    | none => simp [hs] at h
    | some z =>
      simp only [hs, Option.map_some] at h ⊢
      cases ha : readAction D.rlang x with
      | error e => simp [ha] at h
      | ok a =>
        simp only [ha, Except.map] at h ⊢
        by_cases hc : as.any (fun b => b.name == a.name) = true
        · rw [if_pos hc] at h; cases h
        · rw [if_neg hc] at h
          have hp := readStructures_names D xs _ _ h
          have : ¬ (as.map PAction.lowerName).any (fun b => b.name == a.lowerName.name) = true := by
            intro hx
            obtain ⟨l, hl⟩ := hp
            subst hl
            simp only [List.any_eq_true, beq_iff_eq, List.mem_map] at hx
            obtain ⟨-, ⟨b, hb, rfl⟩, e⟩ := hx
            simp only [List.map_append, List.map_cons, List.map_nil, List.append_assoc] at hn
            rw [List.nodup_append] at hn
            exact hn.2.2 (lowerS b.name) (List.mem_map.2 ⟨b, hb, rfl⟩) (lowerS a.name) (by simp) e
          rw [if_neg this]
          have := ih (as ++ [a]) cs h hn
          simpa using this

theorem uniformCosts_lower (D : PDecls) (as : List PAction) :
    uniformCosts D (as.map PAction.lowerName) = (uniformCosts D as).map (List.map PAction.lowerName) := by
  unfold uniformCosts
  have h1 : (as.map PAction.lowerName).any (fun a => a.cost.isSome) = as.any (fun a => a.cost.isSome) := by
    simp [List.any_map, Function.comp_def, PAction.lowerName]
  have h2 : (as.map PAction.lowerName).any (fun a => a.cost.isNone) = as.any (fun a => a.cost.isNone) := by
    simp [List.any_map, Function.comp_def, PAction.lowerName]
  rw [h1, h2]
  split
  · split
    · simp only [Except.map, List.map_map, Except.ok.injEq, List.map_inj_left, Function.comp_apply]
      intro a _
      cases a with | mk n ps pre es c => cases c <;> rfl
    · rfl
  · rfl

theorem uniformCosts_names (D : PDecls) (as bs : List PAction) (h : uniformCosts D as = .ok bs) :
    bs.map PAction.name = as.map PAction.name := by
  unfold uniformCosts at h
  split at h
  · split at h
    · simp only [Except.ok.injEq] at h; subst h
      simp only [List.map_map, List.map_inj_left, Function.comp_apply]
      intro a _
      cases a with | mk n ps pre es c => cases c <;> rfl
    · cases h
  · cases h; rfl

/-- A domain with the names that are kept in lower case. -/
def PDomain.lowerNames (P : PDomain) : PDomain :=
  { P with name := lowerS P.name, actions := P.actions.map PAction.lowerName }

theorem readDomain_up (D0 : PDecls) (x : SX) (Q : PDomain) (h : readDomain D0 x.lower = .ok Q) :
    ∃ P, readDomain D0 x = .ok P ∧ Q = P.lowerNames := by
  unfold readDomain at h
  split at h
  · rename_i n xs heq
    simp only [xle_list, lle_cons, xle_tok, lle_nil, tle_kw, tle_name] at heq
    obtain ⟨-, rfl, -, -, rfl, ⟨-, rfl, rfl⟩, -, xs, rfl, ⟨-, rfl, -, -, rfl, ⟨-, rfl, rfl⟩, -, -, rfl, ⟨-, rfl, n, rfl, rfl⟩, rfl⟩, rfl⟩ := heq
    rw [readSec_lower _ _ readRequire_lower] at h
    simp only [readDomain]
    cases h1 : readSec .requirements readRequire D0 xs with
    | error e => rw [h1] at h; cases h
    | ok r =>
      obtain ⟨D1, x1⟩ := r
      rw [h1] at h; simp only [Except.map] at h ⊢
      rw [readSec_lower _ _ readTypes_lower] at h
      cases h2 : readSec .types readTypes D1 x1 with
      | error e => rw [h2] at h; cases h
      | ok r =>
        obtain ⟨D2, x2⟩ := r
        rw [h2] at h; simp only [Except.map] at h ⊢
        rw [readSec_lower _ _ readObjects_lower] at h
        cases h3 : readSec .constants readObjects D2 x2 with
        | error e => rw [h3] at h; cases h
        | ok r =>
          obtain ⟨D3, x3⟩ := r
          rw [h3] at h; simp only [Except.map] at h ⊢
          rw [readSec_lower _ _ readPredDecls_lower] at h
          cases h4 : readSec .predicates readPredDecls D3 x3 with
          | error e => rw [h4] at h; cases h
          | ok r =>
            obtain ⟨D4, x4⟩ := r
            rw [h4] at h; simp only [Except.map] at h ⊢
            rw [readSec_lower _ _ (fun D xs => readFunDecls_lower _ xs (Nat.le_refl _) D)] at h
            cases h5 : readSec .functions readFunDecls D4 x4 with
            | error e => rw [h5] at h; cases h
            | ok r =>
              obtain ⟨D5, x5⟩ := r
              rw [h5] at h; simp only [Except.map] at h ⊢
              cases h6 : readStructures D5 [] (lowerL x5) with
              | error e => rw [h6] at h; cases h
              | ok as =>
                obtain ⟨cs, hc, rfl⟩ := readStructures_up D5 x5 [] as (by simpa using h6)
                rw [h6] at h; simp only [uniformCosts_lower] at h
                rw [hc]
                cases h7 : uniformCosts D5 cs with
                | error e => rw [h7] at h; cases h
                | ok bs =>
                  rw [h7] at h; simp only [Except.map, Except.ok.injEq] at h
                  exact ⟨⟨n, D5, bs⟩, by simp only [h7], h.symm⟩
  · cases h

theorem readDomain_down (D0 : PDecls) (x : SX) (P : PDomain) (h : readDomain D0 x = .ok P)
    (hn : (P.actions.map (fun a => lowerS a.name)).Nodup) : readDomain D0 x.lower = .ok P.lowerNames := by
  unfold readDomain at h
  split at h
  · rename_i n xs
    simp only [lower_list, lowerL_cons, lowerL_nil, lower_tok, tl_kw, tl_name, readDomain]
    rw [readSec_lower _ _ readRequire_lower]
    cases h1 : readSec .requirements readRequire D0 xs with
    | error e => rw [h1] at h; cases h
    | ok r =>
      obtain ⟨D1, x1⟩ := r
      rw [h1] at h; simp only [Except.map] at h ⊢
      rw [readSec_lower _ _ readTypes_lower]
      cases h2 : readSec .types readTypes D1 x1 with
      | error e => rw [h2] at h; cases h
      | ok r =>
        obtain ⟨D2, x2⟩ := r
        rw [h2] at h; simp only [Except.map] at h ⊢
        rw [readSec_lower _ _ readObjects_lower]
        cases h3 : readSec .constants readObjects D2 x2 with
        | error e => rw [h3] at h; cases h
        | ok r =>
          obtain ⟨D3, x3⟩ := r
          rw [h3] at h; simp only [Except.map] at h ⊢
          rw [readSec_lower _ _ readPredDecls_lower]
          cases h4 : readSec .predicates readPredDecls D3 x3 with
          | error e => rw [h4] at h; cases h
          | ok r =>
            obtain ⟨D4, x4⟩ := r
            rw [h4] at h; simp only [Except.map] at h ⊢
            rw [readSec_lower _ _ (fun D xs => readFunDecls_lower _ xs (Nat.le_refl _) D)]
            cases h5 : readSec .functions readFunDecls D4 x4 with
            | error e => rw [h5] at h; cases h
            | ok r =>
              obtain ⟨D5, x5⟩ := r
              rw [h5] at h; simp only [Except.map] at h ⊢
              cases h6 : readStructures D5 [] x5 with
              | error e => rw [h6] at h; cases h
              | ok cs =>
                rw [h6] at h; simp only at h
                cases h7 : uniformCosts D5 cs with
                | error e => rw [h7] at h; cases h
                | ok bs =>
                  rw [h7] at h; simp only [Except.ok.injEq] at h; subst h
                  have e := uniformCosts_names D5 cs bs h7
                  have hn' : (cs.map (fun a => lowerS a.name)).Nodup := by
                    have := congrArg (List.map lowerS) e
                    simp only [List.map_map, Function.comp_def] at this
                    rw [← this]; exact hn
                  have hd := readStructures_down D5 x5 [] cs h6 hn'
                  simp only [List.map_nil] at hd
                  rw [hd]
                  simp only [uniformCosts_lower, h7, Except.map]
                  rfl
  · cases h

theorem readBound_lower (D : PDecls) (x : SX) : readBound D x.lower = readBound D x := by
  by_cases h : ∃ n ty a b, x = .list [.tok (.name n), .tok .dash, .tok ty, .tok .lbrk, .tok (.num a), .tok .dots, .tok (.num b), .tok .rbrk]
  · obtain ⟨n, ty, a, b, rfl⟩ := h
    have : isNumericTy ty.lower = isNumericTy ty := by cases ty <;> rfl
    simp [readBound, this]
  · have e1 : readBound D x = .error .syntactic := by
      unfold readBound; split
      · exact absurd ⟨_, _, _, _, rfl⟩ h
      · rfl
    rw [e1]
    unfold readBound; split
    · rename_i n ty a b heq
      simp only [xle_list, lle_cons, xle_tok, lle_nil, tle_name, tle_dash, tle_lbrk, tle_num, tle_dots, tle_rbrk] at heq
      obtain ⟨-, rfl, -, -, rfl, ⟨-, rfl, n, rfl, rfl⟩, -, -, rfl, ⟨-, rfl, rfl⟩, -, -, rfl, ⟨ty, rfl, rfl⟩, -, -, rfl, ⟨-, rfl, rfl⟩,
        -, -, rfl, ⟨-, rfl, rfl⟩, -, -, rfl, ⟨-, rfl, rfl⟩, -, -, rfl, ⟨-, rfl, rfl⟩, -, -, rfl, ⟨-, rfl, rfl⟩, rfl⟩ := heq
      exact absurd ⟨_, _, _, _, rfl⟩ h
    · rfl

theorem readBounds_lower (D : PDecls) (xs : List SX) : readBounds D (lowerL xs) = readBounds D xs := by
  induction xs generalizing D with
  | nil => simp
  | cons x xs ih => simp [readBounds, readBound_lower, ih]

theorem readMetric_lower (D : PDecls) (xs : List SX) : readMetric D (lowerL xs) = readMetric D xs := by
  match xs with
  | [] => simp
  | [x] => simp [readMetric]
  | [.tok t, y] =>
    have : readOpt t.lower = readOpt t := by cases t <;> rfl
    simp [readMetric, this, readFunT_lower]
  | [.list _, y] => simp [readMetric]
  | x :: y :: z :: l => simp [readMetric]

theorem readMetas_lower (D : PDecls) (m) (xs : List SX) : readMetas D m (lowerL xs) = readMetas D m xs := by
  induction xs generalizing D m with
  | nil => simp
  | cons x xs ih =>
    simp only [lowerL_cons, readMetas, secOf_lower]
    cases secOf .bounds x with
    | none =>
      simp only [Option.map_none]
      cases secOf .metric x with
      | none => rfl
      | some ys => simp [readMetric_lower, ih]
    | some bs => simp [readBounds_lower, ih]

/-- A problem with the names that are kept in lower case. -/
def PProblem.lowerNames (p : PProblem) : PProblem :=
  { p with name := lowerS p.name, domainName := lowerS p.domainName, actions := p.actions.map PAction.lowerName }

theorem readInstance_lower (P : PDomain) (x : SX) :
    readInstance P.lowerNames x.lower = (readInstance P x).map PProblem.lowerNames := by
  unfold readInstance
  split
  · rename_i n m xs heq
    simp only [xle_list, lle_cons, xle_tok, lle_nil, tle_kw, tle_name, tle_ckw] at heq
    obtain ⟨-, rfl, -, -, rfl, ⟨-, rfl, rfl⟩, -, -, rfl, ⟨-, rfl, -, -, rfl, ⟨-, rfl, rfl⟩, -, -, rfl, ⟨-, rfl, n, rfl, rfl⟩, rfl⟩,
      -, xs, rfl, ⟨-, rfl, -, -, rfl, ⟨-, rfl, rfl⟩, -, -, rfl, ⟨-, rfl, m, rfl, rfl⟩, rfl⟩, rfl⟩ := heq
    dsimp only
    have hl : P.lowerNames.lang = P.lang := rfl
    rw [hl, readSec_lower _ _ readRequire_lower]
    cases readSec .requirements readRequire P.lang xs with
    | error e => rfl
    | ok r =>
      obtain ⟨D1, x1⟩ := r
      simp only [Except.map]
      rw [readSec_lower _ _ readObjects_lower]
      cases readSec .objects readObjects D1 x1 with
      | error e => rfl
      | ok r =>
        obtain ⟨D2, x2⟩ := r
        simp only [Except.map]
        match x2 with
        | [] => rfl
        | [_] => rfl
        | xi :: xg :: metas =>
          simp only [lowerL_cons, secOf_lower]
          cases secOf .init xi with
          | none => simp
          | some is =>
            cases secOf .goal xg with
            | none => simp
            | some gs =>
              match gs with
              | [] => simp
              | [g] =>
                simp only [Option.map_some, lowerL_cons, lowerL_nil, readInitGo_lower, readF_lower, readMetas_lower]
                cases readInitGo D2.mlang D2.rlang D2.real .empty is with
                | error e => rfl
                | ok m =>
                  dsimp only
                  cases readF D2.rlang none g with
                  | error e => rfl
                  | ok f =>
                    dsimp only
                    cases readMetas D2 none metas with
                    | error e => rfl
                    | ok r => rfl
              | _ :: _ :: _ => simp
  · rename_i hne
    split
    · rename_i n m xs
      exact absurd (by simp) (hne (lowerS n) (lowerS m) (lowerL xs))
    · rfl

end Tarski

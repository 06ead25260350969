import Verif.PddlDeclWide
/-! Lemmas: reading back the domain and instance files that the PDDL writer prints. -/
namespace Tarski

/-! ### Actions -/

theorem sameAction_pAction {L : RLang} {real : String → Bool} {a : PAction} (h : OkAction L real a) : SameAction a a.cost (pAction a) := by
  refine ⟨rfl, rfl, ?_⟩
  intro D I hI σ τ ha
  have ha' : ScopeAgree a.params τ σ := fun v hv => ha v hv
  refine ⟨(formula_sem I hI a.pre ha' h.pre).symm, ?_, ?_⟩
  · have key : ∀ es : List Effect, OkEs L real a.params es →
        List.Forall₂ (fun e e' => ∀ ch, Demands I e σ ch ↔ Demands I e' τ ch) es (pEs es) := by
      intro es
      induction es with
      | nil => intro _; exact .nil
      | cons e es ih =>
        intro he
        simp only [OkEs] at he
        exact .cons (fun ch => (effect_sem I hI e ha' he.1 ch).symm) (ih he.2)
    exact key a.effs h.effs
  · cases hcost : a.cost with
    | none => simp [pAction, hcost]
    | some t =>
      have := h.cost
      rw [hcost] at this
      obtain ⟨_, s, _, _, ht⟩ := this
      have hv : evalT I (pT t) τ = evalT I t σ := by
        rcases ht with ht | ht
        · exact term_sem I t ha' ht.1
        · exact numIn_sem I ht τ σ
      simp [pAction, hcost, hv]

theorem readAction_sec {L : RLang} {x : SX} {a : PAction} (h : readAction L x = .ok a) : ∃ ys, secOf .action x = some ys := by
  unfold readAction at h
  split at h
  · exact ⟨_, rfl⟩
  · cases h

theorem actions_read {D : PDecls} {L : RLang} : ∀ (as : List PAction), (∀ a ∈ as, OkAction L D.real a) →
    (∀ a ∈ as, a.cost ≠ none → (D.rlang.funs "total-cost").isSome = true) →
    ∃ ts xs, printActions D as = .ok ts ∧ List.Forall₂ TextsOf ts (xs.map (fun x => [x])) ∧
      List.Forall₂ (fun x a => readAction L x = .ok (pAction a)) xs as
  | [], _, _ => ⟨[], [], rfl, .nil, .nil⟩
  | a :: as, h, hc => by
    obtain ⟨ts, xs, h1, h2, h3⟩ := actions_read as (fun b hb => h b (by simp [hb])) (fun b hb => hc b (by simp [hb]))
    obtain ⟨t, x, i1, i2, i3⟩ := action_read (h a (by simp)) _ (hc a (by simp))
    exact ⟨t :: ts, x :: xs, by simp only [printActions, i1, h1], .cons i2 h2, .cons i3 h3⟩

theorem structures_read {E : PDecls} : ∀ (as : List PAction) (xs : List SX) (acc : List PAction),
    List.Forall₂ (fun x a => readAction E.rlang x = .ok (pAction a)) xs as → ((acc ++ as).map PAction.name).Nodup →
    readStructures E acc xs = .ok (acc ++ as.map pAction)
  | [], _, acc, .nil, _ => by simp [readStructures]
  | a :: as, x :: xs, acc, .cons h1 h2, hn => by
    obtain ⟨ys, hy⟩ := readAction_sec h1
    have hno : acc.any (fun b => b.name == (pAction a).name) = false := by
      rw [List.any_eq_false]
      intro b hb
      simp only [beq_iff_eq]
      intro e
      rw [List.map_append, List.nodup_append] at hn
      exact hn.2.2 b.name (List.mem_map.2 ⟨b, hb, rfl⟩) a.name (by simp) e
    have := structures_read as xs (acc ++ [pAction a]) h2 (by simpa [pAction] using hn)
    simp only [readStructures, hy, h1, hno, Bool.false_eq_true, if_false, this]
    simp

theorem uniform_read {L : RLang} {real : String → Bool} {E : PDecls} {as : List PAction} (h : ∀ a ∈ as, OkAction L real a)
    (hE : L.arithmetic = true → E.numeric = true) :
    ∃ bs, uniformCosts E (as.map pAction) = .ok bs ∧ List.Forall₂ (fun a b => SameAction a (costIn as a) b) as bs := by
  have e1 : (as.map pAction).any (fun a => a.cost.isSome) = as.any (fun a => a.cost.isSome) := by
    simp [List.any_map, Function.comp_def, pAction]
  have e2 : (as.map pAction).any (fun a => a.cost.isNone) = as.any (fun a => a.cost.isNone) := by
    simp [List.any_map, Function.comp_def, pAction]
  have hnum : as.any (fun a => a.cost.isSome) = true → E.numeric = true := by
    intro ha
    obtain ⟨a, ha, hs⟩ := List.any_eq_true.1 ha
    have := (h a ha).cost
    obtain ⟨t, ht⟩ := Option.isSome_iff_exists.1 hs
    rw [ht] at this
    exact hE this.1
  have hsome : ∀ a ∈ as, a.cost.isSome = true → SameAction a (costIn as a) (pAction a) := by
    intro a ha hs
    obtain ⟨t, ht⟩ := Option.isSome_iff_exists.1 hs
    have : costIn as a = a.cost := by simp only [costIn, ht]
    rw [this]; exact sameAction_pAction (h a ha)
  simp only [uniformCosts, e1, e2]
  by_cases hc : (as.any (fun a => a.cost.isSome) && as.any (fun a => a.cost.isNone)) = true
  · simp only [hc, if_true]
    simp only [Bool.and_eq_true] at hc
    rw [if_pos (hnum hc.1)]
    refine ⟨_, rfl, ?_⟩
    rw [List.map_map, List.forall₂_map_right_iff, List.forall₂_same]
    intro a ha
    cases hcost : a.cost with
    | some t =>
      have := hsome a ha (by simp [hcost])
      simpa [pAction, hcost] using this
    | none =>
      have h1 := sameAction_pAction (h a ha)
      have h2 : costIn as a = some (.const (.int 0) "Integer") := by simp only [costIn, hcost, hc.1, if_true]
      rw [h2]
      simp only [Function.comp, pAction, hcost, Option.map_none]
      refine ⟨rfl, rfl, fun D I hI σ τ hv => ?_⟩
      obtain ⟨k1, k2, _⟩ := h1.2.2 D I hI σ τ hv
      refine ⟨k1, k2, ?_⟩
      simp [evalT]
  · rw [if_neg hc]
    refine ⟨_, rfl, ?_⟩
    rw [List.forall₂_map_right_iff, List.forall₂_same]
    intro a ha
    cases hcost : a.cost with
    | some t => exact hsome a ha (by simp [hcost])
    | none =>
      have h2 : costIn as a = a.cost := by
        have : as.any (fun b => b.cost.isSome) = false := by
          cases hany : as.any (fun b => b.cost.isSome) with
          | false => rfl
          | true =>
            refine absurd ?_ hc
            simp only [hany, Bool.true_and]
            exact List.any_eq_true.2 ⟨a, ha, by simp [hcost]⟩
        simp only [costIn, hcost, this, Bool.false_eq_true, if_false]
      rw [h2]; exact sameAction_pAction (h a ha)

/-! ### The domain file -/

theorem textOf_kdefine : TextOf ['d','e','f','i','n','e'] (.tok (.kw .kDefine)) :=
  textOf_kw ['d','e','f','i','n','e'] 'd' ['e','f','i','n','e'] .kDefine rfl (by decide) (by decide) (by decide)
theorem textOf_kdomain : TextOf ['d','o','m','a','i','n'] (.tok (.kw .kDomain)) :=
  textOf_kw ['d','o','m','a','i','n'] 'd' ['o','m','a','i','n'] .kDomain rfl (by decide) (by decide) (by decide)
theorem textOf_kproblem : TextOf ['p','r','o','b','l','e','m'] (.tok (.kw .kProblem)) :=
  textOf_kw ['p','r','o','b','l','e','m'] 'p' ['r','o','b','l','e','m'] .kProblem rfl (by decide) (by decide) (by decide)

theorem readOne_of {t : Text} {x : SX} (h : TextsOf t [x]) : readOne t = .ok x := by
  simp only [readOne, readTrees_textsOf h]

/-- The text of a domain file, from those of its parts. -/
theorem textOf_domain {name reqs types os ps fs as : Text} {xr xt xo xp xf xa : List SX} {n : String} (hn : AName n) (hname : name = n.toList)
    (hr : TextsOf reqs xr) (ht : TextsOf types xt) (ho : TextsOf os xo) (hp : TextsOf ps xp) (hf : TextsOf fs xf) (ha : TextsOf as xa) :
    TextsOf (headerText "Domain".toList ++ "(define (domain ".toList ++ name ++
          ")\n    (:requirements ".toList ++ reqs ++ ")\n    ".toList ++
          sectionText ":types".toList types ++ "\n\n    ".toList ++
          sectionText ":constants".toList os ++ "\n\n    ".toList ++
          sectionText ":predicates".toList ps ++ "\n\n    ".toList ++
          sectionText ":functions".toList fs ++ "\n\n    ".toList ++
          [] ++ "\n\n    ".toList ++ as ++ "\n)\n".toList)
      [.list (.tok (.kw .kDefine) :: .list [.tok (.kw .kDomain), .tok (.name n)] :: .list (.tok (.ckw .requirements) :: xr) ::
        .list (.tok (.ckw .types) :: xt) :: .list (.tok (.ckw .constants) :: xo) :: .list (.tok (.ckw .predicates) :: xp) ::
        .list (.tok (.ckw .functions) :: xf) :: xa)] := by
  have kr := textOf_colon ['r','e','q','u','i','r','e','m','e','n','t','s'] .requirements (by decide) (by decide)
  have kt := textOf_colon ['t','y','p','e','s'] .types (by decide) (by decide)
  have kc := textOf_colon ['c','o','n','s','t','a','n','t','s'] .constants (by decide) (by decide)
  have kp := textOf_colon ['p','r','e','d','i','c','a','t','e','s'] .predicates (by decide) (by decide)
  have kf := textOf_colon ['f','u','n','c','t','i','o','n','s'] .functions (by decide) (by decide)
  have b5 : ∀ c ∈ (['\n',' ',' ',' ',' '] : Text), isBlank c = true := by decide
  have b6 : ∀ c ∈ (['\n','\n',' ',' ',' ',' '] : Text), isBlank c = true := by decide
  have b12 : ∀ c ∈ (['\n','\n',' ',' ',' ',' ','\n','\n',' ',' ',' ',' '] : Text), isBlank c = true := by decide
  have h1 : TextOf ('(' :: (['d','o','m','a','i','n'] ++ ' ' :: name) ++ [')']) (.list [.tok (.kw .kDomain), .tok (.name n)]) := by
    have := textOf_paren (textsOf_sep (textOf_single textOf_kdomain) (textOf_single (textOf_aname hn)) (sep := [' ']) (by simp) blank_sp)
    rw [hname]; simpa using this
  have h2 : TextOf ('(' :: (':' :: ['r','e','q','u','i','r','e','m','e','n','t','s'] ++ ' ' :: reqs) ++ [')']) (.list (.tok (.ckw .requirements) :: xr)) := by
    have := textOf_paren (textsOf_sep (textOf_single kr) hr (sep := [' ']) (by simp) blank_sp)
    simpa using this
  have s1 := textsOf_sep (textOf_single textOf_kdefine) (textOf_single h1) (sep := [' ']) (by simp) blank_sp
  have s2 := textsOf_sep s1 (textOf_single h2) (by simp) b5
  have s3 := textsOf_sep s2 (textOf_single (textOf_section kt ht)) (by simp) b5
  have s4 := textsOf_sep s3 (textOf_single (textOf_section kc ho)) (by simp) b6
  have s5 := textsOf_sep s4 (textOf_single (textOf_section kp hp)) (by simp) b6
  have s6 := textsOf_sep s5 (textOf_single (textOf_section kf hf)) (by simp) b6
  have s7 := textsOf_sep s6 ha (by simp) b12
  have s8 := textsOf_trail s7 (sep := ['\n']) (by simp) blank_nl
  have s9 := textsOf_header (what := "Domain".toList) (by decide)
    (textsOf_trail (textOf_single (textOf_paren s8)) (sep := ['\n']) (by simp) blank_nl)
  have e1 : "(define (domain ".toList = ['(','d','e','f','i','n','e',' ','(','d','o','m','a','i','n',' '] := rfl
  have e2 : ")\n    (:requirements ".toList = [')','\n',' ',' ',' ',' ','(',':','r','e','q','u','i','r','e','m','e','n','t','s',' '] := rfl
  have e3 : ")\n    ".toList = [')','\n',' ',' ',' ',' '] := rfl
  have e4 : "\n\n    ".toList = ['\n','\n',' ',' ',' ',' '] := rfl
  have e5 : "\n)\n".toList = ['\n',')','\n'] := rfl
  have k1 : ":types".toList = ':' :: ['t','y','p','e','s'] := rfl
  have k2 : ":constants".toList = ':' :: ['c','o','n','s','t','a','n','t','s'] := rfl
  have k3 : ":predicates".toList = ':' :: ['p','r','e','d','i','c','a','t','e','s'] := rfl
  have k4 : ":functions".toList = ':' :: ['f','u','n','c','t','i','o','n','s'] := rfl
  rw [e1, e2, e3, e4, e5, k1, k2, k3, k4]
  simpa only [List.append_assoc, List.cons_append, List.nil_append, List.append_nil] using s9

/-- The text of an instance file, from those of its parts. -/
theorem textOf_instance {name dname os is g bs m : Text} {xo xi xb xm : List SX} {xg : SX} {n d : String} (hn : AName n) (hd : AName d)
    (hname : name = n.toList) (hdname : dname = d.toList)
    (ho : TextsOf os xo) (hi : TextsOf is xi) (hg : TextOf g xg) (hb : TextsOf bs xb) (hm : TextsOf m xm) :
    TextsOf (headerText "Instance".toList ++ "(define (problem ".toList ++ name ++ ")\n    (:domain ".toList ++
          dname ++ ")\n\n    ".toList ++
          sectionText ":objects".toList os ++ "\n\n    ".toList ++
          sectionText ":init".toList is ++ "\n\n    ".toList ++
          sectionText ":goal".toList g ++ "\n\n    \n    ".toList ++
          bs ++ "\n    ".toList ++ m ++ "\n)\n".toList)
      [.list (.tok (.kw .kDefine) :: .list [.tok (.kw .kProblem), .tok (.name n)] :: .list [.tok (.ckw .domain), .tok (.name d)] ::
        .list (.tok (.ckw .objects) :: xo) :: .list (.tok (.ckw .init) :: xi) :: .list [.tok (.ckw .goal), xg] :: (xb ++ xm))] := by
  have kd := textOf_colon ['d','o','m','a','i','n'] .domain (by decide) (by decide)
  have ko := textOf_colon ['o','b','j','e','c','t','s'] .objects (by decide) (by decide)
  have ki := textOf_colon ['i','n','i','t'] .init (by decide) (by decide)
  have kg := textOf_colon ['g','o','a','l'] .goal (by decide) (by decide)
  have b5 : ∀ c ∈ (['\n',' ',' ',' ',' '] : Text), isBlank c = true := by decide
  have b6 : ∀ c ∈ (['\n','\n',' ',' ',' ',' '] : Text), isBlank c = true := by decide
  have b11 : ∀ c ∈ (['\n','\n',' ',' ',' ',' ','\n',' ',' ',' ',' '] : Text), isBlank c = true := by decide
  have h1 : TextOf ('(' :: (['p','r','o','b','l','e','m'] ++ ' ' :: name) ++ [')']) (.list [.tok (.kw .kProblem), .tok (.name n)]) := by
    have := textOf_paren (textsOf_sep (textOf_single textOf_kproblem) (textOf_single (textOf_aname hn)) (sep := [' ']) (by simp) blank_sp)
    rw [hname]; simpa using this
  have h2 : TextOf ('(' :: (':' :: ['d','o','m','a','i','n'] ++ ' ' :: dname) ++ [')']) (.list [.tok (.ckw .domain), .tok (.name d)]) := by
    have := textOf_paren (textsOf_sep (textOf_single kd) (textOf_single (textOf_aname hd)) (sep := [' ']) (by simp) blank_sp)
    rw [hdname]; simpa using this
  have s1 := textsOf_sep (textOf_single textOf_kdefine) (textOf_single h1) (sep := [' ']) (by simp) blank_sp
  have s2 := textsOf_sep s1 (textOf_single h2) (by simp) b5
  have s4 := textsOf_sep s2 (textOf_single (textOf_section ko ho)) (by simp) b6
  have s5 := textsOf_sep s4 (textOf_single (textOf_section ki hi)) (by simp) b6
  have s6 := textsOf_sep s5 (textOf_single (textOf_section kg (textOf_single hg))) (by simp) b6
  have s7 := textsOf_sep s6 hb (by simp) b11
  have s7' := textsOf_sep s7 hm (by simp) b5
  have s8 := textsOf_trail s7' (sep := ['\n']) (by simp) blank_nl
  have s9 := textsOf_header (what := "Instance".toList) (by decide)
    (textsOf_trail (textOf_single (textOf_paren s8)) (sep := ['\n']) (by simp) blank_nl)
  have e1 : "(define (problem ".toList = ['(','d','e','f','i','n','e',' ','(','p','r','o','b','l','e','m',' '] := rfl
  have e2 : ")\n    (:domain ".toList = [')','\n',' ',' ',' ',' ','(',':','d','o','m','a','i','n',' '] := rfl
  have e3 : ")\n\n    ".toList = [')','\n','\n',' ',' ',' ',' '] := rfl
  have e4 : "\n\n    ".toList = ['\n','\n',' ',' ',' ',' '] := rfl
  have e5 : "\n)\n".toList = ['\n',')','\n'] := rfl
  have e6 : "\n\n    \n    ".toList = ['\n','\n',' ',' ',' ',' ','\n',' ',' ',' ',' '] := rfl
  have e7 : "\n    ".toList = ['\n',' ',' ',' ',' '] := rfl
  have k1 : ":objects".toList = ':' :: ['o','b','j','e','c','t','s'] := rfl
  have k2 : ":init".toList = ':' :: ['i','n','i','t'] := rfl
  have k3 : ":goal".toList = ':' :: ['g','o','a','l'] := rfl
  rw [e1, e2, e3, e4, e5, e6, e7, k1, k2, k3]
  simpa only [List.append_assoc, List.cons_append, List.nil_append, List.append_nil] using s9

end Tarski

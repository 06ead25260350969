import Mathlib.Tactic.Common
import Verif.PddlDeclText
import Verif.PddlDeclSpec
/-! Lemmas: reading back the declarations that the PDDL writer prints. -/
namespace Tarski

/-! ### Names -/

theorem pname_ne {s w : String} (h : PName s) (hw : (reserved w).isSome = true ∨ ∃ d ∈ w.toList, lowerC d ≠ d) : s ≠ w := by
  rintro rfl
  rcases hw with hw | ⟨d, hd, hn⟩
  · rw [h.1] at hw; cases hw
  · exact hn (h.2.1 d hd)

theorem pname_ne_object {s : String} (h : PName s) : s ≠ "object" := pname_ne h (.inl (by decide))
theorem pname_ne_int {s : String} (h : PName s) : s ≠ "int" := pname_ne h (.inl (by decide))
theorem pname_ne_number {s : String} (h : PName s) : s ≠ "number" := pname_ne h (.inl (by decide))
theorem pname_ne_Integer {s : String} (h : PName s) : s ≠ "Integer" := pname_ne h (.inr ⟨'I', by decide, by decide⟩)
theorem pname_ne_Real {s : String} (h : PName s) : s ≠ "Real" := pname_ne h (.inr ⟨'R', by decide, by decide⟩)
theorem pname_ne_Natural {s : String} (h : PName s) : s ≠ "Natural" := pname_ne h (.inr ⟨'N', by decide, by decide⟩)

theorem pddlType_pname {s : String} (h : PName s) : pddlType s = s := by
  simp [pddlType, pname_ne_Integer h, pname_ne_Natural h, pname_ne_Real h]

theorem tarskiType_pname {s : String} (h : PName s) (hr : s ≠ "real") : tarskiType s = s := by
  simp [tarskiType, pname_ne_int h, pname_ne_number h, hr]

theorem userSort_cases {D : PDecls} (hD : OkDecls D) {s : String} (h : UserSort D s) : s = "object" ∨ (PName s ∧ s ≠ "real") := by
  rcases h with h | ⟨d, hd, rfl⟩
  · exact .inl h
  · exact .inr (hD.sorts d hd)

theorem userSort_pddl {D : PDecls} (hD : OkDecls D) {s : String} (h : UserSort D s) : pddlType s = s ∧ SName s := by
  rcases userSort_cases hD h with rfl | ⟨h1, h2⟩
  · exact ⟨by decide, .inr (.inl rfl)⟩
  · exact ⟨pddlType_pname h1, .inl h1⟩

/-! ### Lists of names -/

theorem readNamesGo_pend (obj : Bool) (so : Bool) (rest : List SX) : ∀ (ns : List String) (pend : List String), (∀ n ∈ ns, PName n) →
    readNamesGo obj pend so (ns.map (fun n => SX.tok (.name n)) ++ rest) = readNamesGo obj (pend ++ ns) so rest
  | [], pend, _ => by simp
  | n :: ns, pend, h => by
    simp only [List.map_cons, List.cons_append, readNamesGo]
    rw [lowerS_pname (h n (by simp)), readNamesGo_pend obj so rest ns _ (fun m hm => h m (by simp [hm]))]
    simp

/-- A group `n ... n - s`. -/
theorem readNamesGo_group (obj : Bool) {ns : List String} {s : String} {x : SX} {rest : List SX} {u t : List (String × String)}
    (hne : ns ≠ []) (hns : ∀ n ∈ ns, PName n) (hx : readTypename x = .ok s)
    (hr : readNamesGo obj [] false rest = .ok (u, t)) :
    readNamesGo obj [] false (ns.map (fun n => SX.tok (.name n)) ++ [.tok .dash, x] ++ rest) =
      .ok (u, ns.map (fun n => (n, s)) ++ t) := by
  rw [List.append_assoc, readNamesGo_pend obj false _ ns [] hns]
  simp only [List.nil_append, List.cons_append, readNamesGo, hx, hr]
  rw [if_neg (by simp [hne])]

/-- The text of a group. -/
theorem textsOf_group {ns : List String} {s : String} {x : SX} (hne : ns ≠ []) (hns : ∀ n ∈ ns, PName n) (hx : TextOf s.toList x) :
    TextsOf (joinWith [' '] (ns.map String.toList) ++ [' ', '-', ' '] ++ s.toList)
      (ns.map (fun n => SX.tok (.name n)) ++ [.tok .dash, x]) := by
  have h1 : List.Forall₂ TextOf (ns.map String.toList) (ns.map (fun n => SX.tok (.name n))) := by
    induction ns with
    | nil => exact .nil
    | cons n ns ih =>
      refine .cons (textOf_pname (hns n (by simp))) ?_
      by_cases hn : ns = []
      · subst hn; exact .nil
      · exact ih hn (fun m hm => hns m (by simp [hm]))
  have h2 := textsOf_spaced h1
  have h3 := textsOf_sep (textsOf_sep h2 (textOf_single (textOf_tok lexesTo_dash (by simp) (by simp))) (sep := [' '])
    (by simp) blank_sp) (textOf_single hx) (sep := [' ']) (by simp) blank_sp
  simpa [List.append_assoc] using h3

/-! ### Sorts -/

/-- The bounds that an interval sort has after its declaration. -/
def widen (d : SDecl) : SDecl := { d with bounds := d.bounds.map (fun _ => (-(2 ^ 31 - 1), 2 ^ 31 - 1)) }

theorem sortFind_none {D : PDecls} {s : String} (hb : D.numeric = true → s ∉ ["Real", "Integer", "Natural"])
    (hs : s ∉ D.sorts.map SDecl.name) : D.sort s = none := by
  simp only [PDecls.sort, List.find?_eq_none, PDecls.allSorts]
  intro d hd
  rcases List.mem_append.1 hd with hd | hd
  · split at hd
    · rename_i hn
      have := hb hn
      simp only [builtinSorts, List.mem_cons, List.not_mem_nil, or_false] at hd
      rcases hd with rfl | rfl | rfl <;> simp_all <;> tauto
    · cases hd
  · simp only [beq_iff_eq]
    rintro rfl
    exact hs (List.mem_map.2 ⟨d, hd, rfl⟩)

theorem pname_not_builtinSort {s : String} (h : PName s) : s ∉ ["Real", "Integer", "Natural"] := by
  simp [pname_ne_Real h, pname_ne_Integer h, pname_ne_Natural h]

theorem sortFind_some {D : PDecls} {d : SDecl} (hd : d ∈ D.sorts) : ∃ e, D.sort d.name = some e := by
  have : (D.sort d.name).isSome = true := by
    rw [PDecls.sort, List.find?_isSome]
    exact ⟨d, by simp [PDecls.allSorts, hd], by simp⟩
  exact Option.isSome_iff_exists.1 this

theorem integerBounds {D : PDecls} (h : D.numeric = true) : D.bounds "Integer" = some (-(2 ^ 31 - 1), 2 ^ 31 - 1) := by
  simp only [PDecls.bounds, PDecls.sort, PDecls.allSorts, h, if_true, builtinSorts, List.cons_append, List.find?_cons]
  rfl

theorem used_false {D : PDecls} {n : String} (h : PName n) (h1 : n ∉ D.sorts.map SDecl.name)
    (h2 : D.arithmetic = true → n ≠ "ite") (h3 : Name.str n ∉ D.consts.map (·.1)) (h4 : n ∉ D.preds.map (·.1))
    (h5 : n ∉ D.funs.map (·.1)) : D.used n = false := by
  have k1 : D.sort n = none := sortFind_none (fun _ => pname_not_builtinSort h) h1
  have k2 : (D.arithmetic && n == "ite") = false := by
    cases ha : D.arithmetic with
    | false => rfl
    | true => simpa using h2 ha
  simp [PDecls.used, PDecls.hasSort, pname_ne_object h, k1, k2, (dlookup_none _ _).2 h3, (dlookup_none _ _).2 h4,
    (dlookup_none _ _).2 h5]

/-- All names that are declared. -/
def PDecls.names (D : PDecls) : List Name :=
  D.sorts.map (fun d => Name.str d.name) ++ D.consts.map (·.1) ++ D.preds.map (fun p => Name.str p.1) ++
    D.funs.map (fun f => Name.str f.1)

theorem used_false' {D : PDecls} {n : String} (h : PName n) (h2 : D.arithmetic = true → n ≠ "ite")
    (hn : Name.str n ∉ D.names) : D.used n = false := by
  simp only [PDecls.names, List.mem_append, not_or] at hn
  obtain ⟨⟨⟨h1, h3⟩, h4⟩, h5⟩ := hn
  refine used_false h ?_ h2 h3 ?_ ?_
  · intro hm; obtain ⟨d, hd, rfl⟩ := List.mem_map.1 hm; exact h1 (List.mem_map.2 ⟨d, hd, rfl⟩)
  · intro hm; obtain ⟨d, hd, rfl⟩ := List.mem_map.1 hm; exact h4 (List.mem_map.2 ⟨d, hd, rfl⟩)
  · intro hm; obtain ⟨d, hd, rfl⟩ := List.mem_map.1 hm; exact h5 (List.mem_map.2 ⟨d, hd, rfl⟩)

theorem hasSort_of_mem {D : PDecls} {s : String} (h : s = "object" ∨ ∃ d ∈ D.sorts, d.name = s) : D.hasSort s = true := by
  rcases h with rfl | ⟨d, hd, rfl⟩
  · rfl
  · obtain ⟨e, he⟩ := sortFind_some hd
    simp [PDecls.hasSort, he]

/-- The parent that is printed, and what it is read as. -/
theorem parent_pddl {D : PDecls} (hD : OkDecls D) {pre post : List SDecl} {d : SDecl} (hs : D.sorts = pre ++ d :: post) :
    SName (pddlType d.parent) ∧ tarskiType (pddlType d.parent) = d.parent := by
  rcases hD.parents pre d post hs with ⟨_, h | ⟨e, he, h⟩⟩ | ⟨_, h, _⟩
  · rw [h]; exact ⟨.inr (.inl (by decide)), by decide⟩
  · obtain ⟨h1, h2⟩ := hD.sorts e (by simp [hs, he])
    rw [← h, pddlType_pname h1]
    exact ⟨.inl h1, tarskiType_pname h1 h2⟩
  · rw [h]; exact ⟨.inr (.inr (.inl (by decide))), by decide⟩

/-- One sort. -/
theorem createSort_ok {D E : PDecls} (hD : OkDecls D) {pre post : List SDecl} {d : SDecl} (hs : D.sorts = pre ++ d :: post)
    (hE : E.sorts = pre.map widen) (hn : E.numeric = D.numeric) (hu : E.used d.name = false) :
    createSort E d.name (pddlType d.parent) = .ok { E with sorts := E.sorts ++ [widen d] } := by
  obtain ⟨h1, h2⟩ := hD.sorts d (by simp [hs])
  obtain ⟨_, h4⟩ := parent_pddl hD hs
  simp only [createSort, pname_ne_object h1, if_false, tarskiType_pname h1 h2, h4]
  rcases hD.parents pre d post hs with ⟨hb, hp⟩ | ⟨hnum, hp, l, u, hb, _⟩
  · have k1 : ¬ (d.parent = "Natural" ∨ d.parent = "Integer" ∨ d.parent = "Real") := by
      rcases hp with hp | ⟨e, he, hp⟩
      · rw [hp]; decide
      · rw [← hp]
        have := (hD.sorts e (by simp [hs, he])).1
        simp [pname_ne_Real this, pname_ne_Integer this, pname_ne_Natural this]
    have k2 : E.hasSort d.parent = true := by
      apply hasSort_of_mem
      rcases hp with hp | ⟨e, he, hp⟩
      · exact .inl hp
      · exact .inr ⟨widen e, by rw [hE]; exact List.mem_map.2 ⟨e, he, rfl⟩, hp⟩
    simp [k1, k2, PDecls.addSort, hu, widen, hb]
  · simp [hp, integerBounds (hn.trans hnum), PDecls.addSort, hu, widen, hb]

theorem createSorts_ok {D : PDecls} (hD : OkDecls D) : ∀ (post pre : List SDecl) (E : PDecls), D.sorts = pre ++ post →
    E.sorts = pre.map widen → E.numeric = D.numeric → E.arithmetic = D.arithmetic → E.consts = [] → E.preds = [] → E.funs = [] →
    createSorts E (post.map (fun d => (d.name, pddlType d.parent))) = .ok { E with sorts := D.sorts.map widen }
  | [], pre, E, hs, hE, hn, ha, hc, hp, hf => by
    simp only [List.append_nil] at hs
    simp [createSorts, hs, ← hE]
  | d :: post, pre, E, hs, hE, hn, ha, hc, hp, hf => by
    have hnd : (D.sorts.map (fun d => Name.str d.name)).Nodup := by
      have := hD.distinct
      rw [List.append_assoc, List.append_assoc] at this
      exact (List.nodup_append.1 this).1
    have hnot : Name.str d.name ∉ pre.map (fun d => Name.str d.name) := by
      rw [hs, List.map_append, List.nodup_append] at hnd
      intro hm
      exact hnd.2.2 _ hm (Name.str d.name) (by simp) rfl
    have hu : E.used d.name = false := by
      refine used_false' (hD.sorts d (by simp [hs])).1 ?_ ?_
      · intro har hite
        refine hD.noIte (ha ▸ har) ?_
        simp only [List.append_assoc, List.mem_append]
        exact .inl (List.mem_map.2 ⟨d, by simp [hs], by rw [hite]⟩)
      · simp only [PDecls.names, hE, hc, hp, hf, List.map_nil, List.append_nil, List.map_map]
        exact hnot
    simp only [List.map_cons, createSorts, createSort_ok hD hs hE hn hu]
    have := createSorts_ok hD post (pre ++ [d]) { E with sorts := E.sorts ++ [widen d] } (by simp [hs]) (by simp [hE])
      hn ha hc hp hf
    simpa using this

/-- The types, written and read. -/
theorem types_read {D : PDecls} (hD : OkDecls D) : ∃ xs, TextsOf (printTypes D) xs ∧
    readTypes D.bare xs = .ok { D.bare with sorts := D.sorts.map widen } := by
  have ho : TextOf "object".toList (.tok (.kw .kObject)) :=
    textOf_kw ['o','b','j','e','c','t'] 'o' ['b','j','e','c','t'] .kObject rfl (by decide) (by decide) (by decide)
  have key : ∀ (post pre : List SDecl), D.sorts = pre ++ post → ∃ xss : List (List SX),
      List.Forall₂ TextsOf (post.map printType ++ ["object".toList]) xss ∧
      readNamesGo true [] false xss.flatten = .ok ([], post.map (fun d => (d.name, pddlType d.parent))) := by
    intro post
    induction post with
    | nil =>
      intro pre _
      exact ⟨[[.tok (.kw .kObject)]], .cons (textOf_single ho) .nil, by simp [readNamesGo]⟩
    | cons d post ih =>
      intro pre hs
      obtain ⟨xss, h1, h2⟩ := ih (pre ++ [d]) (by simp [hs])
      obtain ⟨x, h3, h4⟩ := readTypename_sname (parent_pddl hD hs).1
      have hd := (hD.sorts d (by simp [hs])).1
      have h5 := textsOf_group (ns := [d.name]) (s := pddlType d.parent) (x := x) (by simp) (by simpa using hd) h3
      refine ⟨([d.name].map (fun n => SX.tok (.name n)) ++ [.tok .dash, x]) :: xss, .cons ?_ h1, ?_⟩
      · simpa [printType, pddlType_pname hd, joinWith] using h5
      · have := readNamesGo_group true (ns := [d.name]) (by simp) (by simpa using hd) h4 h2
        simpa using this
  obtain ⟨xss, h1, h2⟩ := key D.sorts [] (by simp)
  refine ⟨_, textsOf_lines h1, ?_⟩
  simp only [readTypes, readNames, h2, List.nil_append]
  exact createSorts_ok hD D.sorts [] D.bare (by simp) rfl rfl rfl rfl rfl rfl

/-! ### Requirements -/

/-- The token of a requirement. -/
def keyTok (t : Text) : CKw :=
  if t = ":action-costs".toList then .actionCosts else if t = ":numeric-fluents".toList then .numericFluents else .key

theorem requirement_text {D : PDecls} {t : Text} (h : t ∈ D.requirements) : TextOf t (.tok (.ckw (keyTok t))) := by
  simp only [PDecls.requirements, List.mem_append] at h
  have hx : ∀ (b : Prop) [Decidable b] (w : Text), t ∈ (if b then [] else [w]) ∨ t ∈ (if b then [w] else []) → t = w := by
    intro b _ w h
    by_cases hb : b
    · simpa [hb] using h
    · simpa [hb] using h
  rcases h with ((h | h) | h) | h
  · rw [hx _ _ (.inl h)]
    exact textOf_colon ['t','y','p','i','n','g'] _ (by decide) (by decide)
  · rw [hx _ _ (.inr h)]
    exact textOf_colon ['e','q','u','a','l','i','t','y'] _ (by decide) (by decide)
  · rw [hx _ _ (.inr h)]
    exact textOf_colon ['a','c','t','i','o','n','-','c','o','s','t','s'] _ (by decide) (by decide)
  · rw [hx _ _ (.inr h)]
    exact textOf_colon ['n','u','m','e','r','i','c','-','f','l','u','e','n','t','s'] _ (by decide) (by decide)

/-- Without numbers there are no intervals. -/
theorem bounds_none {D : PDecls} (hD : OkDecls D) (hn : D.numeric = false) (s : String) : D.bounds s = none := by
  cases hs : D.sort s with
  | none => simp [PDecls.bounds, hs]
  | some d =>
    have hm : d ∈ D.sorts := by
      have := List.mem_of_find?_eq_some hs
      simpa [PDecls.allSorts, hn] using this
    obtain ⟨pre, post, hp⟩ := List.append_of_mem hm
    rcases hD.parents pre d post hp with ⟨h, _⟩ | ⟨h, _⟩
    · simp [PDecls.bounds, hs, h]
    · rw [hn] at h; cases h

theorem requirements_numeric {D : PDecls} (hD : OkDecls D) (hn : D.numeric = false) :
    ":action-costs".toList ∉ D.requirements ∧ ":numeric-fluents".toList ∉ D.requirements := by
  have h1 : (dlookup D.funs "total-cost").isSome = false := by
    rcases hD.cost with h | h
    · rw [hn] at h; cases h
    · simp [h]
  have h2 : D.numericFluents = false := by
    simp [PDecls.numericFluents, bounds_none hD hn]
  simp only [PDecls.requirements, h1, h2]
  constructor <;> (split <;> split <;> decide)

theorem requirements_read {D : PDecls} (hD : OkDecls D) {rs : List Text} (hrs : ∀ t ∈ rs, t ∈ D.requirements) : ∃ xs,
    TextsOf (joinWith [' '] rs) xs ∧ readRequire D.bare xs = .ok D.bare := by
  refine ⟨rs.map (fun t => .tok (.ckw (keyTok t))), ?_, ?_⟩
  · apply textsOf_spaced
    clear hD
    induction rs with
    | nil => exact .nil
    | cons t rs ih => exact .cons (requirement_text (hrs t (by simp))) (ih (fun u hu => hrs u (by simp [hu])))
  · have h1 : (rs.map (fun t => SX.tok (.ckw (keyTok t)))).all isKey = true := by
      simp only [List.all_map, List.all_eq_true]
      intro t _
      simp only [Function.comp, keyTok]
      split
      · rfl
      · split <;> rfl
    have hb : D.bare.numeric = D.numeric := rfl
    simp only [readRequire, h1, if_true, hb]
    cases hn : D.numeric with
    | true => simp
    | false =>
      obtain ⟨k1, k2⟩ := requirements_numeric hD hn
      have h2 : (rs.map (fun t => SX.tok (.ckw (keyTok t)))).any isCosts = false := by
        simp only [List.any_map, List.any_eq_false]
        intro t ht
        have h3 : t ≠ ":action-costs".toList := fun h => k1 (h ▸ hrs t ht)
        simp only [Function.comp, keyTok, if_neg h3]
        split <;> simp [isCosts]
      have h3 : (rs.map (fun t => SX.tok (.ckw (keyTok t)))).any isFluents = false := by
        simp only [List.any_map, List.any_eq_false]
        intro t ht
        have h3 : t ≠ ":numeric-fluents".toList := fun h => k2 (h ▸ hrs t ht)
        simp only [Function.comp, keyTok, if_neg h3]
        split <;> simp [isFluents]
      simp [h2, h3]

/-! ### Objects -/

theorem createConsts_ok : ∀ (l : List (String × String)) (E : PDecls),
    (∀ c ∈ l, PName c.1 ∧ E.hasSort c.2 = true ∧ E.bounds c.2 = none ∧ Name.str c.1 ∉ E.names ∧
      (E.arithmetic = true → c.1 ≠ "ite")) → (l.map (·.1)).Nodup →
    createConsts E l = .ok { E with consts := E.consts ++ l.map (fun c => (Name.str c.1, c.2)) }
  | [], E, _, _ => by simp [createConsts]
  | (n, s) :: l, E, h, hn => by
    obtain ⟨h1, h2, h3, h4, h5⟩ := h (n, s) (by simp)
    simp only [createConsts, createConst, h2, if_true, h3, Option.isSome_none, used_false' h1 h5 h4, Bool.false_eq_true, if_false]
    simp only [List.map_cons, List.nodup_cons] at hn
    rw [createConsts_ok l _ ?_ hn.2]
    · simp
    · intro c hc
      obtain ⟨i1, i2, i3, i4, i5⟩ := h c (by simp [hc])
      refine ⟨i1, i2, i3, ?_, i5⟩
      simp only [PDecls.names, List.map_append, List.mem_append, not_or] at i4 ⊢
      obtain ⟨⟨⟨j1, j2⟩, j3⟩, j4⟩ := i4
      refine ⟨⟨⟨j1, j2, ?_⟩, j3⟩, j4⟩
      simp only [List.map_cons, List.map_nil, List.mem_singleton, Name.str.injEq]
      intro e
      exact hn.1 (List.mem_map.2 ⟨c, hc, e⟩)

theorem mem_objectSorts {cs : List (Name × String)} {s : String} : s ∈ objectSorts cs ↔ ∃ c ∈ cs, c.2 = s := by
  induction cs with
  | nil => simp [objectSorts]
  | cons c cs ih =>
    simp only [objectSorts]
    split
    · rename_i h
      simp only [List.mem_cons, exists_eq_or_imp, ← ih]
      constructor
      · exact .inr
      · rintro (rfl | h')
        · exact h
        · exact h'
    · simp only [List.mem_cons, exists_eq_or_imp, ih]
      constructor
      · rintro (rfl | h) <;> simp_all
      · rintro (rfl | h) <;> simp_all

theorem objectSorts_nodup (cs : List (Name × String)) : (objectSorts cs).Nodup := by
  induction cs with
  | nil => simp [objectSorts]
  | cons c cs ih =>
    simp only [objectSorts]
    split
    · exact ih
    · rename_i h; exact List.nodup_cons.2 ⟨h, ih⟩

theorem sortStrings_perm (l : List String) : (sortStrings l).Perm l := List.mergeSort_perm _ _

theorem objectNames_ok : ∀ (cs : List (Name × String)), (∀ c ∈ cs, ∃ n, c.1 = .str n ∧ PName n) →
    ∃ ns, objectNames cs = .ok ns ∧ cs = ns.map (fun c => (Name.str c.1, c.2)) ∧ ∀ c ∈ ns, PName c.1
  | [], _ => ⟨[], rfl, rfl, by simp⟩
  | (m, s) :: cs, h => by
    obtain ⟨ns, h1, h2, h3⟩ := objectNames_ok cs (fun c hc => h c (by simp [hc]))
    obtain ⟨n, h4, h5⟩ := h (m, s) (by simp)
    simp only at h4
    subst h4
    refine ⟨(n, s) :: ns, by simp [objectNames, h1], by simp [← h2], ?_⟩
    intro c hc
    rcases List.mem_cons.1 hc with rfl | hc
    · exact h5
    · exact h3 c hc

/-- Objects, written and read: the same objects, ordered by sort and name. -/
theorem objects_read {E : PDecls} {cs : List (Name × String)} (h1 : ∀ c ∈ cs, ∃ n, c.1 = .str n ∧ PName n ∧
      Name.str n ∉ E.names ∧ (E.arithmetic = true → n ≠ "ite"))
    (h2 : ∀ c ∈ cs, SName c.2 ∧ E.hasSort c.2 = true ∧ E.bounds c.2 = none) (h3 : (cs.map (·.1)).Nodup) :
    ∃ t xs cs', printObjects cs = .ok t ∧ TextsOf t xs ∧ cs'.Perm cs ∧
      readObjects E xs = .ok { E with consts := E.consts ++ cs' } := by
  obtain ⟨ns, i1, i2, i3⟩ := objectNames_ok cs (fun c hc => by obtain ⟨n, h, h', _⟩ := h1 c hc; exact ⟨n, h, h'⟩)
  have hnn : (ns.map (·.1)).Nodup := by
    rw [i2, List.map_map] at h3
    have : (ns.map (·.1)).map Name.str = ns.map ((·.1) ∘ fun c : String × String => (Name.str c.1, c.2)) := by simp
    rw [← this] at h3
    exact List.Nodup.of_map _ h3
  obtain ⟨ss, hss⟩ : ∃ ss, ss = sortStrings (objectSorts cs) := ⟨_, rfl⟩
  obtain ⟨names, hnames⟩ : ∃ names : String → List String, names =
    fun s => sortStrings ((ns.filter (fun c => c.2 == s)).map (·.1)) := ⟨_, rfl⟩
  have mem_names : ∀ s n, n ∈ names s ↔ (n, s) ∈ ns := by
    intro s n
    simp only [hnames, (sortStrings_perm _).mem_iff, List.mem_map, List.mem_filter, beq_iff_eq]
    constructor
    · rintro ⟨⟨a, b⟩, ⟨h, rfl⟩, rfl⟩; exact h
    · intro h; exact ⟨(n, s), ⟨h, rfl⟩, rfl⟩
  have mem_ss : ∀ s, s ∈ ss ↔ ∃ n, (n, s) ∈ ns := by
    intro s
    simp only [hss, (sortStrings_perm _).mem_iff, mem_objectSorts]
    constructor
    · rintro ⟨c, hc, rfl⟩
      rw [i2] at hc
      obtain ⟨d, hd, rfl⟩ := List.mem_map.1 hc
      exact ⟨d.1, hd⟩
    · rintro ⟨n, h⟩
      exact ⟨(Name.str n, s), by rw [i2]; exact List.mem_map.2 ⟨_, h, rfl⟩, rfl⟩
  have names_nodup : ∀ s, (names s).Nodup := fun s => by
    rw [hnames]
    exact ((sortStrings_perm _).nodup_iff).2 (hnn.sublist (List.filter_sublist.map _))
  have ss_nodup : ss.Nodup := by
    rw [hss]
    exact ((sortStrings_perm _).nodup_iff).2 (objectSorts_nodup cs)
  have hgroup : ∀ s, printGroup ns s = joinWith [' '] ((names s).map String.toList) ++ [' ', '-', ' '] ++ s.toList := by
    intro s; rw [hnames]; rfl
  have key : ∀ l : List String, (∀ s ∈ l, s ∈ ss) → ∃ xss : List (List SX), List.Forall₂ TextsOf (l.map (printGroup ns)) xss ∧
      readNamesGo false [] false xss.flatten = .ok ([], l.flatMap (fun s => (names s).map (fun n => (n, s)))) := by
    intro l
    induction l with
    | nil => intro _; exact ⟨[], .nil, by simp [readNamesGo]⟩
    | cons s l ih =>
      intro hl
      obtain ⟨xss, j1, j2⟩ := ih (fun u hu => hl u (by simp [hu]))
      obtain ⟨n, hn⟩ := (mem_ss s).1 (hl s (by simp))
      have hs : SName s := by
        refine (h2 (Name.str n, s) ?_).1
        rw [i2]; exact List.mem_map.2 ⟨_, hn, rfl⟩
      obtain ⟨x, j3, j4⟩ := readTypename_sname hs
      have hne : names s ≠ [] := fun e => by
        have := (mem_names s n).2 hn
        rw [e] at this; cases this
      have hpn : ∀ n ∈ names s, PName n := fun n hn => i3 (n, s) ((mem_names s n).1 hn)
      refine ⟨((names s).map (fun n => SX.tok (.name n)) ++ [.tok .dash, x]) :: xss,
        .cons (by rw [hgroup]; exact textsOf_group hne hpn j3) j1, ?_⟩
      simpa using readNamesGo_group false hne hpn j4 j2
  obtain ⟨xss, j1, j2⟩ := key ss (fun _ h => h)
  obtain ⟨l, hll⟩ : ∃ l, l = ss.flatMap (fun s => (names s).map (fun n => (n, s))) := ⟨_, rfl⟩
  rw [← hll] at j2
  have hl : l.Perm ns := by
    rw [List.perm_ext_iff_of_nodup]
    · rintro ⟨n, s⟩
      simp only [hll, List.mem_flatMap, List.mem_map, Prod.mk.injEq]
      constructor
      · rintro ⟨u, _, m, hm, rfl, rfl⟩; exact (mem_names _ _).1 hm
      · intro h; exact ⟨s, (mem_ss s).2 ⟨n, h⟩, n, (mem_names s n).2 h, rfl, rfl⟩
    · rw [hll, List.nodup_flatMap]
      refine ⟨fun s _ => (names_nodup s).map (fun a b h => by simpa using h), ?_⟩
      refine ss_nodup.imp ?_
      intro a b hab
      rw [Function.onFun, List.disjoint_left]
      rintro ⟨n, s⟩ h1 h2
      obtain ⟨_, _, e1⟩ := List.mem_map.1 h1
      obtain ⟨_, _, e2⟩ := List.mem_map.1 h2
      simp only [Prod.mk.injEq] at e1 e2
      exact hab (e1.2.trans e2.2.symm)
    · exact List.Nodup.of_map _ hnn
  refine ⟨lines2 (ss.map (printGroup ns)), xss.flatten, l.map (fun c => (Name.str c.1, c.2)), by simp only [printObjects, i1, hss],
    by rw [lines2_eq]; exact textsOf_lines j1, by rw [i2]; exact hl.map _, ?_⟩
  simp only [readObjects, readNames, j2, List.nil_append]
  refine createConsts_ok l E ?_ (((hl.map _).nodup_iff).2 hnn)
  intro c hc
  have hc' : (Name.str c.1, c.2) ∈ cs := by rw [i2]; exact List.mem_map.2 ⟨c, hl.mem_iff.1 hc, rfl⟩
  obtain ⟨n, k1, k2, k3, k4⟩ := h1 _ hc'
  obtain ⟨_, k5, k6⟩ := h2 _ hc'
  simp only [Name.str.injEq] at k1
  subst k1
  exact ⟨k2, k5, k6, k3, k4⟩

/-! ### Predicates and functions -/

theorem sigVar_vname (i : Nat) : VName (String.ofList ('x' :: Nat.toDigits 10 i)) := by
  refine ⟨'x', Nat.toDigits 10 i, ?_, by decide, fun d hd => dig_word (digits_dig i d hd)⟩
  simp only [printVarName, String.toList_ofList]
  rfl

theorem sig_read {D E : PDecls} (hD : OkDecls D) (hE : ∀ s, UserSort D s → E.hasSort s = true) {ss : List String}
    (h : ∀ s ∈ ss, UserSort D s) :
    ∃ xs vs, TextsOf (printSig ss) xs ∧ readVarsList E.rlang xs = .ok vs ∧ vs.map Var.sort = ss := by
  have key : ∀ (ss : List String) (i : Nat), (∀ s ∈ ss, UserSort D s) →
      (∀ v ∈ sigVars i ss, VName v.sym ∧ SName v.sort ∧ E.rlang.hasSort v.sort = true) ∧
      (sigVars i ss).map Var.sort = ss := by
    intro ss
    induction ss with
    | nil => intro i _; simp [sigVars]
    | cons s ss ih =>
      intro i h
      obtain ⟨h1, h2⟩ := ih (i + 1) (fun u hu => h u (by simp [hu]))
      have hs := h s (by simp)
      obtain ⟨k1, k2⟩ := userSort_pddl hD hs
      simp only [sigVars, List.mem_cons, List.map_cons, k1, h2, and_true]
      rintro v (rfl | hv)
      · exact ⟨sigVar_vname i, k2, hE s hs⟩
      · exact h1 v hv
  obtain ⟨h1, h2⟩ := key ss 1 h
  obtain ⟨xs, h3, h4⟩ := varList_read (L := E.rlang) (sigVars 1 ss) h1
  exact ⟨xs, _, h3, h4, by simpa [List.map_map, Function.comp_def, pvar_sort] using h2⟩

theorem preds_read {D : PDecls} (hD : OkDecls D) : ∀ (ps : List (String × List String)) (E : PDecls),
    (∀ s, UserSort D s → E.hasSort s = true) → (∀ p ∈ ps, p ∈ D.preds) → (∀ p ∈ ps, Name.str p.1 ∉ E.names) →
    (∀ p ∈ ps, E.arithmetic = true → p.1 ≠ "ite") → (ps.map (·.1)).Nodup →
    ∃ xs, List.Forall₂ TextOf (ps.map printPredDecl) xs ∧ readPredDecls E xs = .ok { E with preds := E.preds ++ ps }
  | [], E, _, _, _, _, _ => ⟨[], .nil, by simp [readPredDecls]⟩
  | p :: ps, E, hE, hm, hu, hi, hn => by
    obtain ⟨hp, hs⟩ := hD.preds p (hm p (by simp))
    obtain ⟨xs, vs, h1, h2, h3⟩ := sig_read (E := E) hD hE hs
    have ht := textOf_paren (textsOf_sep (textOf_single (textOf_pname hp)) h1 (sep := [' ']) (by simp) blank_sp)
    simp only [List.map_cons, List.nodup_cons] at hn
    have hE' : ∀ s, UserSort D s → ({ E with preds := E.preds ++ [p] } : PDecls).hasSort s = true := hE
    obtain ⟨ys, i1, i2⟩ := preds_read hD ps { E with preds := E.preds ++ [p] } hE' (fun q hq => hm q (by simp [hq]))
      (by
        intro q hq
        have := hu q (by simp [hq])
        simp only [PDecls.names, List.map_append, List.mem_append, not_or] at this ⊢
        obtain ⟨⟨⟨j1, j2⟩, j3⟩, j4⟩ := this
        refine ⟨⟨⟨j1, j2⟩, j3, ?_⟩, j4⟩
        simp only [List.map_cons, List.map_nil, List.mem_singleton, Name.str.injEq]
        intro e
        exact hn.1 (List.mem_map.2 ⟨q, hq, e⟩))
      (fun q hq => hi q (by simp [hq])) hn.2
    refine ⟨_, .cons (by simpa [printPredDecl, List.append_assoc] using ht) i1, ?_⟩
    have hused := used_false' hp (hi p (by simp)) (hu p (by simp))
    simp only [readPredDecls, readPredDecl, h2, lowerS_pname hp, hused, Bool.false_eq_true, if_false, h3]
    simpa using i2

theorem funs_read {D : PDecls} (hD : OkDecls D) : ∀ (fs : List (String × List String × String)) (E : PDecls),
    (∀ s, UserSort D s → E.hasSort s = true) → (∀ f ∈ fs, f ∈ D.funs) → (∀ f ∈ fs, Name.str f.1 ∉ E.names) →
    (∀ f ∈ fs, E.arithmetic = true → f.1 ≠ "ite") → (fs.map (·.1)).Nodup →
    ∃ xss : List (List SX), List.Forall₂ TextsOf (fs.map printFunDecl) xss ∧
      readFunDecls E xss.flatten = .ok { E with funs := E.funs ++ fs }
  | [], E, _, _, _, _, _ => ⟨[], .nil, by simp [readFunDecls]⟩
  | f :: fs, E, hE, hm, hu, hi, hn => by
    obtain ⟨hp, hs, hc⟩ := hD.funs f (hm f (by simp))
    obtain ⟨xs, vs, h1, h2, h3⟩ := sig_read (E := E) hD hE hs
    obtain ⟨k1, k2⟩ := userSort_pddl hD hc
    obtain ⟨ty, k3, k4⟩ := readTypename_sname k2
    have ht := textOf_paren (textsOf_sep (textOf_single (textOf_pname hp)) h1 (sep := [' ']) (by simp) blank_sp)
    have ht2 := textsOf_spaced (.cons ht (.cons (textOf_tok lexesTo_dash (by simp) (by simp)) (.cons k3 .nil)))
    simp only [List.map_cons, List.nodup_cons] at hn
    have hE' : ∀ s, UserSort D s → ({ E with funs := E.funs ++ [f] } : PDecls).hasSort s = true := hE
    obtain ⟨ys, i1, i2⟩ := funs_read hD fs { E with funs := E.funs ++ [f] } hE' (fun q hq => hm q (by simp [hq]))
      (by
        intro q hq
        have := hu q (by simp [hq])
        simp only [PDecls.names, List.map_append, List.mem_append, not_or] at this ⊢
        obtain ⟨⟨⟨j1, j2⟩, j3⟩, j4⟩ := this
        refine ⟨⟨⟨j1, j2⟩, j3⟩, j4, ?_⟩
        simp only [List.map_cons, List.map_nil, List.mem_singleton, Name.str.injEq]
        intro e
        exact hn.1 (List.mem_map.2 ⟨q, hq, e⟩))
      (fun q hq => hi q (by simp [hq])) hn.2
    refine ⟨_, .cons (by simpa [printFunDecl, joinWith, k1, List.append_assoc] using ht2) i1, ?_⟩
    have hused := used_false' hp (hi f (by simp)) (hu f (by simp))
    simp only [List.flatten_cons, List.cons_append, List.nil_append, readFunDecls, k4, readFunDecl, actionName, h2,
      lowerS_pname hp, hused, Bool.false_eq_true, if_false, h3, hE _ hc, if_true]
    simpa using i2

end Tarski

import Verif.PddlWell
/-! C121: problems that are read from PDDL files are well formed. -/
namespace Tarski

/-! ### Specification -/

/-- All names of a language: sorts, constants, predicates, functions. -/
def PDecls.vocabulary (D : PDecls) : List Name :=
  ("object" :: D.allSorts.map SDecl.name).map Name.str ++ D.consts.map Prod.fst ++ D.preds.map (fun p => .str p.1) ++
    D.funs.map (fun f => .str f.1)

/-- A language in which no name is declared twice, every declaration comes after what it refers to, the sorts form a tree below
`object`, the sorts right below the builtin numeric ones are the intervals, and the constants have other sorts. -/
structure WellDeclared (D : PDecls) : Prop where
  names : D.vocabulary.Nodup
  sorts : SortsFrom ["object"] D.allSorts
  sortNames : ∀ d ∈ D.sorts, LowerName d.name ∨ d.name ∈ ["Real", "Integer"]
  intervals : ∀ d ∈ D.sorts, d.bounds.isSome = true ↔ d.parent ∈ builtinSorts.map SDecl.name
  consts : ∀ c ∈ D.consts, (∃ n, c.1 = .str n ∧ LowerName n) ∧ ObjectSort D c.2
  preds : ∀ p ∈ D.preds, LowerName p.1 ∧ ∀ s ∈ p.2, D.hasSort s = true
  funs : ∀ f ∈ D.funs, (LowerName f.1 ∨ ∃ n, f.1 = "@" ++ n ∧ LowerName n) ∧ (∀ s ∈ f.2.1, D.hasSort s = true) ∧ D.hasSort f.2.2 = true

mutual
/-- A term whose variables are in the given scope, and whose constants and functions are declared and get arguments of their sorts. -/
def ScopedT (D : PDecls) (sc : Var → Prop) : Term → Prop
  | .var v => sc v
  | .const n s => (n, s) ∈ D.consts ∨ (∃ i, n = .int i) ∧ (D.bounds s).isSome = true
  | .app f ts => ((f ∈ builtinBinary ∧ ts.length = 2 ∧ ∀ t ∈ ts, D.isSub (D.rlang.sortOf t) "Real" = true) ∨
      ∃ ss s, (f, ss, s) ∈ D.funs ∧ List.Forall₂ (fun t s => D.isSub (D.rlang.sortOf t) s = true) ts ss) ∧ ScopedTs D sc ts
  | .ite _ _ _ => False
def ScopedTs (D : PDecls) (sc : Var → Prop) : List Term → Prop
  | [] => True
  | t :: ts => ScopedT D sc t ∧ ScopedTs D sc ts
end

/-- An atom over declared symbols, with arguments of their sorts. -/
def ScopedAtom (D : PDecls) (sc : Var → Prop) (p : PSym) (ts : List Term) : Prop :=
  ScopedTs D sc ts ∧ match p with
    | .user p => ∃ ss, (p, ss) ∈ D.preds ∧ List.Forall₂ (fun t s => D.isSub (D.rlang.sortOf t) s = true) ts ss
    | .cmp c => ts.length = 2 ∧ ∀ t ∈ ts, D.isSub (D.rlang.sortOf t) (if c = .eq ∨ c = .ne then "object" else "Real") = true

mutual
/-- A formula without free variables outside of the given scope, over declared symbols. There is no way to write `false` in PDDL. -/
def ScopedF (D : PDecls) (sc : Var → Prop) : Formula → Prop
  | .top => True
  | .bot => False
  | .atom p ts => ScopedAtom D sc p ts
  | .comp _ c fs => (c = .not → fs.length = 1) ∧ (c ≠ .not → 2 ≤ fs.length) ∧ ScopedFs D sc fs
  | .quant _ vs f => ∃ ws : List Var, ws ≠ [] ∧ vs = ws.map Term.var ∧ (∀ v ∈ ws, D.hasSort v.sort = true) ∧ ScopedF D (fun v => sc v ∨ v ∈ ws) f
def ScopedFs (D : PDecls) (sc : Var → Prop) : List Formula → Prop
  | [] => True
  | f :: fs => ScopedF D sc f ∧ ScopedFs D sc fs
end

mutual
/-- An effect over declared symbols and variables in scope. -/
def ScopedE (D : PDecls) (sc : Var → Prop) : Effect → Prop
  | .add c p ts => ScopedF D sc c ∧ ScopedAtom D sc p ts
  | .del c p ts => ScopedF D sc c ∧ ScopedAtom D sc p ts
  | .lit _ _ => False
  | .assign c f ts r => ScopedF D sc c ∧ ScopedT D sc (.app f ts) ∧ ScopedT D sc r
  | .univ c vs es => ScopedF D sc c ∧ (∀ v ∈ vs, D.hasSort v.sort = true) ∧ ScopedEs D (fun v => sc v ∨ v ∈ vs) es
def ScopedEs (D : PDecls) (sc : Var → Prop) : List Effect → Prop
  | [] => True
  | e :: es => ScopedE D sc e ∧ ScopedEs D sc es
end

/-- An action with a name that is not a reserved word and distinct parameters of declared sorts, all of whose parts are in their scope. -/
structure ScopedAction (D : PDecls) (a : PAction) : Prop where
  name : AName a.name ∨ ∃ n, a.name = "@" ++ n ∧ ∃ c cs, n.toList = c :: cs ∧ isLetter c = true ∧ ∀ d ∈ cs, isWordChar d = true
  distinct : (a.params.map Var.sym).Nodup
  params : ∀ v ∈ a.params, (∃ n, v.sym = "?" ++ n ∧ LowerName n) ∧ D.hasSort v.sort = true
  pre : ScopedF D (· ∈ a.params) a.pre
  effs : ScopedEs D (· ∈ a.params) a.effs
  cost : ∀ t, a.cost = some t → ScopedT D (· ∈ a.params) t

/-- A constant of the language of the sort, or a number of the sort, which is an interval. -/
def ArgOf (D : PDecls) (c : Const) (s : String) : Prop :=
  (c.name, c.sort) ∈ D.consts ∧ D.isSub c.sort s = true ∨ (∃ i, c.name = .int i) ∧ c.sort = s ∧ (D.bounds s).isSome = true

/-- A problem with a well-formed language, whose parts refer to what is declared, in the scope where it is. -/
structure WellFormedProblem (p : PProblem) : Prop where
  name : AName p.name
  domainName : AName p.domainName
  lang : WellDeclared p.lang
  facts : ∀ q pt, p.init.holds p.lang.mlang q pt = true →
    ∃ ss, (q, ss) ∈ p.lang.preds ∧ List.Forall₂ (ArgOf p.lang) pt ss
  values : ∀ f pt v, p.init.value p.lang.mlang f pt = .ok v →
    ∃ ss s, (f, ss, s) ∈ p.lang.funs ∧ List.Forall₂ (ArgOf p.lang) (pt ++ [v]) (ss ++ [s])
  names : (p.actions.map PAction.name).Nodup
  actions : ∀ a ∈ p.actions, ScopedAction p.lang a
  goal : ∃ g, p.goal = some g ∧ ScopedF p.lang (fun _ => False) g
  metric : ∀ b t, p.metric = some (b, t) → ScopedT p.lang (fun _ => False) t
  derived : p.derived = []

/-! ### Declarations -/

theorem SortsFrom.append : ∀ {ds : List SDecl} {seen : List String} {d : SDecl}, SortsFrom seen ds → d.name ∉ seen → d.name ∉ ds.map SDecl.name →
    (d.parent ∈ seen ∨ d.parent ∈ ds.map SDecl.name) → SortsFrom seen (ds ++ [d])
  | [], seen, d, _, h1, _, h3 => ⟨h1, by simpa using h3, trivial⟩
  | e :: ds, seen, d, h, h1, h2, h3 => by
    obtain ⟨a, b, c⟩ := h
    simp only [List.map_cons, List.mem_cons, not_or] at h2 h3
    refine ⟨a, b, c.append (by simp [h1, h2.1]) h2.2 ?_⟩
    rcases h3 with h3 | h3 | h3
    · exact .inl (by simp [h3])
    · exact .inl (by simp [h3])
    · exact .inr h3

theorem SortsFrom.weaken : ∀ {ds : List SDecl} {seen seen' : List String}, SortsFrom seen ds → (∀ s ∈ seen, s ∈ seen') →
    (∀ d ∈ ds, d.name ∈ seen' → d.name ∈ seen) → SortsFrom seen' ds
  | [], _, _, _, _, _ => trivial
  | e :: ds, seen, seen', h, h1, h2 => by
    obtain ⟨a, b, c⟩ := h
    refine ⟨fun hh => a (h2 e (by simp) hh), h1 _ b, c.weaken ?_ ?_⟩
    · intro s hs
      rcases List.mem_cons.1 hs with rfl | hs
      · simp
      · simp [h1 s hs]
    · intro d hd hh
      rcases List.mem_cons.1 hh with hh | hh
      · simp [hh]
      · exact List.mem_cons_of_mem _ (h2 d (by simp [hd]) hh)

theorem SortsFrom.same : ∀ {ds ds' : List SDecl} {seen : List String}, SortsFrom seen ds →
    List.Forall₂ (fun d d' => d'.name = d.name ∧ d'.parent = d.parent) ds ds' → SortsFrom seen ds'
  | [], _, _, _, h => by cases h; trivial
  | d :: ds, _, seen, h, hf => by
    cases hf with
    | cons h1 h2 =>
      obtain ⟨a, b, c⟩ := h
      refine ⟨by rw [h1.1]; exact a, by rw [h1.2]; exact b, ?_⟩
      rw [h1.1]
      exact c.same h2

theorem mem_keys_dlookup {α β} [DecidableEq α] {d : List (α × β)} {k : α} : k ∈ d.map Prod.fst → (dlookup d k).isSome = true := by
  induction d with
  | nil => simp
  | cons x d ih =>
    intro h
    simp only [List.map_cons, List.mem_cons] at h
    simp only [dlookup]
    split
    · rfl
    · rcases h with h | h
      · exact absurd h.symm ‹_›
      · exact ih h

/-- A name that is not used is not in the vocabulary. -/
theorem PDecls.unused {D : PDecls} (hc : ∀ c ∈ D.consts, ∃ n, c.1 = .str n) {n : String} (h : D.used n = false) : Name.str n ∉ D.vocabulary := by
  simp only [PDecls.used, Bool.or_eq_false_iff] at h
  obtain ⟨⟨⟨⟨h1, -⟩, h2⟩, h3⟩, h4⟩ := h
  intro hm
  simp only [PDecls.vocabulary, List.mem_append, List.mem_map] at hm
  rcases hm with ((⟨s, hs, e⟩ | ⟨c, hcm, e⟩) | ⟨p, hp, e⟩) | ⟨f, hf, e⟩
  · cases e
    rw [(PDecls.hasSort_iff D n).2 hs] at h1
    cases h1
  · rw [mem_keys_dlookup (List.mem_map.2 ⟨c, hcm, e⟩)] at h2
    cases h2
  · cases e
    rw [mem_keys_dlookup (List.mem_map.2 ⟨p, hp, rfl⟩)] at h3
    cases h3
  · cases e
    rw [mem_keys_dlookup (List.mem_map.2 ⟨f, hf, rfl⟩)] at h4
    cases h4

theorem nodup_put {α} {A B : List α} {x : α} (h : (A ++ B).Nodup) (hx : x ∉ A ++ B) : (A ++ x :: B).Nodup := by
  rw [List.nodup_middle]
  exact List.nodup_cons.2 ⟨hx, h⟩

theorem nodup_put2 {α} {A B C E : List α} {x : α} (h : (A ++ B ++ C ++ E).Nodup) (hx : x ∉ A ++ B ++ C ++ E) : (A ++ (B ++ [x]) ++ C ++ E).Nodup := by
  have := nodup_put (A := A ++ B) (B := C ++ E) (x := x) (by simpa [List.append_assoc] using h) (by simpa [List.append_assoc] using hx)
  simpa [List.append_assoc] using this

theorem nodup_put3 {α} {A B C E : List α} {x : α} (h : (A ++ B ++ C ++ E).Nodup) (hx : x ∉ A ++ B ++ C ++ E) : (A ++ B ++ (C ++ [x]) ++ E).Nodup := by
  have := nodup_put (A := A ++ B ++ C) (B := E) (x := x) h hx
  simpa [List.append_assoc] using this

theorem nodup_put4 {α} {A B C E : List α} {x : α} (h : (A ++ B ++ C ++ E).Nodup) (hx : x ∉ A ++ B ++ C ++ E) : (A ++ B ++ C ++ (E ++ [x])).Nodup := by
  have := nodup_put (A := A ++ B ++ C ++ E) (B := []) (x := x) (by simpa using h) (by simpa using hx)
  simpa [List.append_assoc] using this

/-- What a language keeps when more is declared. -/
structure PDecls.Below (D D' : PDecls) : Prop where
  sort : ∀ s d, D.sort s = some d → D'.sort s = some d
  length : D.allSorts.length ≤ D'.allSorts.length
  consts : ∀ n s, dlookup D.consts n = some s → dlookup D'.consts n = some s
  preds : ∀ p ss, dlookup D.preds p = some ss → dlookup D'.preds p = some ss
  funs : ∀ p ss, dlookup D.funs p = some ss → dlookup D'.funs p = some ss

theorem PDecls.Below.refl (D : PDecls) : D.Below D := ⟨fun _ _ h => h, le_refl _, fun _ _ h => h, fun _ _ h => h, fun _ _ h => h⟩

theorem PDecls.Below.trans {D D' D'' : PDecls} (h : D.Below D') (h' : D'.Below D'') : D.Below D'' :=
  ⟨fun s d e => h'.sort s d (h.sort s d e), le_trans h.length h'.length, fun n s e => h'.consts n s (h.consts n s e),
    fun n s e => h'.preds n s (h.preds n s e), fun n s e => h'.funs n s (h.funs n s e)⟩

theorem PDecls.Below.hasSort {D D' : PDecls} (h : D.Below D') {s : String} (hs : D.hasSort s = true) : D'.hasSort s = true := by
  simp only [PDecls.hasSort, Bool.or_eq_true] at hs ⊢
  refine hs.imp_right fun hs => ?_
  obtain ⟨d, hd⟩ := Option.isSome_iff_exists.1 hs
  rw [h.sort s d hd]; rfl

theorem bounds_object {D : PDecls} (h : WellDeclared D) : D.bounds "object" = none := by
  cases hd : D.sort "object" with
  | none => simp [PDecls.bounds, hd]
  | some d =>
    exfalso
    have h1 : d ∈ D.allSorts := List.mem_of_find?_eq_some hd
    have h2 : d.name = "object" := by simpa using List.find?_some hd
    have h3 := h.names
    simp only [PDecls.vocabulary, List.map_cons, List.append_assoc, List.cons_append, List.nodup_cons] at h3
    apply h3.1
    rw [List.mem_append]
    exact .inl (List.mem_map.2 ⟨"object", List.mem_map.2 ⟨d, h1, h2⟩, rfl⟩)

theorem PDecls.Below.objectSort {D D' : PDecls} (h : D.Below D') (hb : D'.bounds "object" = none) {s : String} (hs : ObjectSort D s) : ObjectSort D' s := by
  refine ⟨h.hasSort hs.1, ?_⟩
  by_cases he : s = "object"
  · rw [he]; exact hb
  · have h1 := hs.1
    simp only [PDecls.hasSort, Bool.or_eq_true, beq_iff_eq, he, false_or] at h1
    obtain ⟨d, hd⟩ := Option.isSome_iff_exists.1 h1
    have h2 := hs.2
    simp only [PDecls.bounds, hd] at h2
    simp only [PDecls.bounds, h.sort s d hd]
    exact h2

theorem Below.subGo {par par' : String → Option String} (h : ∀ s q, par s = some q → par' s = some q) :
    ∀ {k k' : Nat} {s t : String}, k ≤ k' → Tarski.subGo par k s t = true → Tarski.subGo par' k' s t = true := by
  intro k
  induction k with
  | zero =>
    intro k' s t _ hs
    rcases subGo_cases hs with rfl | ⟨l, q, h, -⟩
    · exact subGo_refl ..
    · omega
  | succ k ih =>
    intro k' s t hk hs
    rcases subGo_cases hs with rfl | ⟨j, q, hj, hp, hs⟩
    · exact subGo_refl ..
    · obtain rfl : k = j := by omega
      match k', hk with
      | k' + 1, hk => exact subGo_step (h s q hp) (ih (by omega) hs)

theorem PDecls.Below.isSub {D D' : PDecls} (h : D.Below D') {s t : String} (hs : D.isSub s t = true) : D'.isSub s t = true := by
  refine Tarski.Below.subGo (fun s q hq => ?_) (Nat.succ_le_succ h.length) hs
  obtain ⟨d, hd, rfl⟩ := Option.map_eq_some_iff.1 hq
  rw [h.sort s d hd]; rfl

theorem PDecls.allSorts_add (D : PDecls) (d : SDecl) : ({ D with sorts := D.sorts ++ [d] } : PDecls).allSorts = D.allSorts ++ [d] := by
  show _ ++ (D.sorts ++ [d]) = (_ ++ D.sorts) ++ [d]
  rw [List.append_assoc]
  rfl

theorem find_append {α} {p : α → Bool} {l l' : List α} {a : α} (h : l.find? p = some a) : (l ++ l').find? p = some a := by
  rw [List.find?_append, h]; rfl

theorem dlookup_append {α β} [DecidableEq α] {d d' : List (α × β)} {k : α} {v : β} (h : dlookup d k = some v) : dlookup (d ++ d') k = some v := by
  induction d with
  | nil => simp [dlookup] at h
  | cons x d ih =>
    simp only [List.cons_append, dlookup] at h ⊢
    split
    · simpa [*] using h
    · rename_i hx
      simp only [hx, if_false] at h
      exact ih h

theorem addSort_ok {D D' : PDecls} {d : SDecl} (h : D.addSort d = .ok D') : D.used d.name = false ∧ D' = { D with sorts := D.sorts ++ [d] } := by
  unfold PDecls.addSort at h
  split at h
  · cases h
  · rename_i hu
    cases h
    exact ⟨by simpa using hu, rfl⟩

theorem below_addSort {D : PDecls} (d : SDecl) : D.Below { D with sorts := D.sorts ++ [d] } := by
  refine ⟨fun s e h => ?_, ?_, fun _ _ h => h, fun _ _ h => h, fun _ _ h => h⟩
  · simp only [PDecls.sort, PDecls.allSorts_add] at h ⊢
    exact find_append h
  · rw [PDecls.allSorts_add]; simp

theorem WellDeclared.strs {D : PDecls} (h : WellDeclared D) : ∀ c ∈ D.consts, ∃ n, c.1 = .str n := fun c hc =>
  let ⟨⟨n, hn, _⟩, _⟩ := h.consts c hc; ⟨n, hn⟩

theorem WellDeclared.extend {D D' : PDecls} (h : WellDeclared D) (hb : D.Below D') (hn : D'.vocabulary.Nodup) (hs : SortsFrom ["object"] D'.allSorts)
    (hsn : ∀ d ∈ D'.sorts, LowerName d.name ∨ d.name ∈ ["Real", "Integer"]) (hi : ∀ d ∈ D'.sorts, d.bounds.isSome = true ↔ d.parent ∈ builtinSorts.map SDecl.name)
    (hc : ∀ c ∈ D'.consts, c ∈ D.consts ∨ (∃ n, c.1 = .str n ∧ LowerName n) ∧ ObjectSort D c.2)
    (hp : ∀ p ∈ D'.preds, p ∈ D.preds ∨ LowerName p.1 ∧ ∀ s ∈ p.2, D.hasSort s = true)
    (hf : ∀ f ∈ D'.funs, f ∈ D.funs ∨ (LowerName f.1 ∨ ∃ n, f.1 = "@" ++ n ∧ LowerName n) ∧ (∀ s ∈ f.2.1, D.hasSort s = true) ∧ D.hasSort f.2.2 = true) :
    WellDeclared D' := by
  have hbo : D'.bounds "object" = none := by
    cases hd : D'.sort "object" with
    | none => simp [PDecls.bounds, hd]
    | some d =>
      exfalso
      have h1 : d ∈ D'.allSorts := List.mem_of_find?_eq_some hd
      have h2 : d.name = "object" := by simpa using List.find?_some hd
      have h3 := hn
      simp only [PDecls.vocabulary, List.map_cons, List.append_assoc, List.cons_append, List.nodup_cons] at h3
      apply h3.1
      rw [List.mem_append]
      exact .inl (List.mem_map.2 ⟨"object", List.mem_map.2 ⟨d, h1, h2⟩, rfl⟩)
  refine ⟨hn, hs, hsn, hi, fun c hcm => ?_, fun p hpm => ?_, fun f hfm => ?_⟩
  · have := (hc c hcm).elim (h.consts c) id
    exact ⟨this.1, hb.objectSort hbo this.2⟩
  · have := (hp p hpm).elim (h.preds p) id
    exact ⟨this.1, fun s hs => hb.hasSort (this.2 s hs)⟩
  · have := (hf f hfm).elim (h.funs f) id
    exact ⟨this.1, fun s hs => hb.hasSort (this.2.1 s hs), hb.hasSort this.2.2⟩

theorem WellDeclared.addSort {D D' : PDecls} {d : SDecl} (h : WellDeclared D) (hd : D.addSort d = .ok D') (hn : LowerName d.name ∨ d.name ∈ ["Real", "Integer"])
    (hp : D.hasSort d.parent = true) (hi : d.bounds.isSome = true ↔ d.parent ∈ builtinSorts.map SDecl.name) : WellDeclared D' ∧ D.Below D' := by
  obtain ⟨hu, rfl⟩ := addSort_ok hd
  have hv := PDecls.unused h.strs hu
  have hb := below_addSort (D := D) d
  refine ⟨h.extend hb ?_ ?_ ?_ ?_ (fun _ => .inl) (fun _ => .inl) (fun _ => .inl), hb⟩
  · simp only [PDecls.vocabulary, PDecls.allSorts_add, List.map_append, List.map_cons, List.map_nil, List.append_assoc, List.cons_append,
      List.nil_append] at hv ⊢
    have := h.names
    simp only [PDecls.vocabulary, List.map_cons, List.append_assoc, List.cons_append] at this hv
    exact nodup_put (A := Name.str "object" :: List.map Name.str (D.allSorts.map SDecl.name)) (by simpa using this) (by simpa using hv)
  · rw [PDecls.allSorts_add]
    have hv' : ¬ d.name ∈ "object" :: D.allSorts.map SDecl.name := fun hm => hv (by
      simp only [PDecls.vocabulary, List.mem_append]
      exact .inl (.inl (.inl (List.mem_map.2 ⟨_, hm, rfl⟩))))
    have hp' := (PDecls.hasSort_iff D _).1 hp
    simp only [List.mem_cons, not_or] at hv' hp'
    exact h.sorts.append (by simpa using hv'.1) hv'.2 (by simpa using hp')
  · intro e he
    rcases List.mem_append.1 he with he | he
    · exact h.sortNames e he
    · rw [List.mem_singleton.1 he]; exact hn
  · intro e he
    rcases List.mem_append.1 he with he | he
    · exact h.intervals e he
    · rw [List.mem_singleton.1 he]; exact hi

theorem tarskiType_name {s : String} (h : LowerName s) : LowerName (tarskiType s) ∨ tarskiType s ∈ ["Real", "Integer"] := by
  unfold tarskiType
  split
  · exact .inr (by simp)
  · split
    · exact .inr (by simp)
    · exact .inl h

theorem WellDeclared.createSort {D D' : PDecls} {ty base : String} (h : WellDeclared D) (hd : createSort D ty base = .ok D')
    (hn : LowerName ty) : WellDeclared D' ∧ D.Below D' := by
  unfold Tarski.createSort at hd
  split at hd
  · cases hd; exact ⟨h, .refl _⟩
  · simp only at hd
    split at hd
    · rename_i hb
      split at hd
      · cases hd
      · rename_i b hbb
        refine h.addSort hd (tarskiType_name hn) ?_ ?_
        · simp only [PDecls.hasSort, Bool.or_eq_true]
          right
          cases hs : D.sort (tarskiType base) with
          | none => simp [PDecls.bounds, hs] at hbb
          | some d => rfl
        · simp only [Option.isSome_some, true_iff]
          rcases hb with hb | hb | hb <;> rw [hb] <;> decide
    · rename_i hb
      split at hd
      · rename_i hs
        refine h.addSort hd (tarskiType_name hn) hs ?_
        simp only [not_or] at hb
        simp [builtinSorts, hb.1, hb.2.1, hb.2.2]
      · cases hd

theorem WellDeclared.createSorts : ∀ {l : List (String × String)} {D D' : PDecls}, WellDeclared D → createSorts D l = .ok D' →
    (∀ x ∈ l, LowerName x.1) → WellDeclared D' ∧ D.Below D'
  | [], D, D', h, hd, _ => by cases hd; exact ⟨h, .refl _⟩
  | (t, b) :: l, D, D', h, hd, hn => by
    simp only [Tarski.createSorts] at hd
    split at hd
    · cases hd
    · rename_i h1
      have a := h.createSort h1 (hn (t, b) (by simp))
      have b := a.1.createSorts hd (fun x hx => hn x (by simp [hx]))
      exact ⟨b.1, a.2.trans b.2⟩

theorem WellDeclared.createConst {D D' : PDecls} {n s : String} (h : WellDeclared D) (hd : createConst D n s = .ok D') (hn : LowerName n) :
    WellDeclared D' ∧ D.Below D' := by
  unfold Tarski.createConst at hd
  split at hd
  · rename_i hs
    split at hd
    · cases hd
    · rename_i hb
      split at hd
      · cases hd
      · rename_i hu
        cases hd
        have hv := PDecls.unused h.strs (n := n) (by simpa using hu)
        have hbl : D.Below { D with consts := D.consts ++ [(.str n, s)] } :=
          ⟨fun _ _ h => h, le_refl _, fun _ _ h => dlookup_append h, fun _ _ h => h, fun _ _ h => h⟩
        refine ⟨h.extend hbl ?_ h.sorts h.sortNames h.intervals ?_ (fun _ => .inl) (fun _ => .inl), hbl⟩
        · have key := nodup_put2 h.names hv
          simp only [PDecls.vocabulary, List.map_append, List.map_cons, List.map_nil]
          exact key
        · intro c hc
          rcases List.mem_append.1 hc with hc | hc
          · exact .inl hc
          · rw [List.mem_singleton.1 hc]
            exact .inr ⟨⟨n, rfl, hn⟩, hs, by simpa using hb⟩
  · cases hd

theorem WellDeclared.createConsts : ∀ {l : List (String × String)} {D D' : PDecls}, WellDeclared D → createConsts D l = .ok D' →
    (∀ x ∈ l, LowerName x.1) → WellDeclared D' ∧ D.Below D'
  | [], D, D', h, hd, _ => by cases hd; exact ⟨h, .refl _⟩
  | (t, b) :: l, D, D', h, hd, hn => by
    simp only [Tarski.createConsts] at hd
    split at hd
    · cases hd
    · rename_i h1
      have a := h.createConst h1 (hn (t, b) (by simp))
      have b := a.1.createConsts hd (fun x hx => hn x (by simp [hx]))
      exact ⟨b.1, a.2.trans b.2⟩

/-! ### Sections of declarations -/

theorem readNamesGo_ok (obj : Bool) : ∀ (xs : List SX) (pend : List String) (so : Bool) (r : List (String × String) × List (String × String)),
    SXOKs xs → (∀ n ∈ pend, LowerName n) → readNamesGo obj pend so xs = .ok r → (∀ x ∈ r.1, LowerName x.1) ∧ ∀ x ∈ r.2, LowerName x.1 := by
  intro xs
  induction h : xs.length using Nat.strong_induction_on generalizing xs with
  | _ k ih =>
    intro pend so r hx hp hr
    match xs, h with
    | [], _ =>
      simp only [readNamesGo, Except.ok.injEq] at hr
      subst hr
      refine ⟨fun x hm => ?_, by simp⟩
      obtain ⟨n, hn, rfl⟩ := List.mem_map.1 hm
      exact hp n hn
    | x :: xs, h =>
      subst h
      unfold readNamesGo at hr
      split at hr
      · refine ih _ (Nat.lt_succ_self _) _ rfl _ _ _ hx.2 ?_ hr
        intro n hn
        rcases List.mem_append.1 hn with hn | hn
        · exact hp n hn
        · rw [List.mem_singleton.1 hn]; exact NameTok.lower hx.1.1
      · split at hr
        · exact ih _ (Nat.lt_succ_self _) _ rfl _ _ _ hx.2 hp hr
        · cases hr
      · split at hr
        · cases hr
        · split at hr
          · cases hr
          · split at hr
            · cases hr
            · split at hr
              · cases hr
              · rename_i hrec
                simp only [Except.ok.injEq] at hr
                subst hr
                have := ih _ (by simp; omega) _ rfl _ _ _ hx.2.2 (by simp) hrec
                refine ⟨this.1, fun x hm => ?_⟩
                rcases List.mem_append.1 hm with hm | hm
                · obtain ⟨n, hn, rfl⟩ := List.mem_map.1 hm
                  exact hp n hn
                · exact this.2 x hm
      · cases hr

theorem readNames_ok {obj : Bool} {xs : List SX} {l : List (String × String)} (hx : SXOKs xs) (h : readNames obj xs = .ok l) : ∀ x ∈ l, LowerName x.1 := by
  unfold readNames at h
  split at h
  · cases h
  · rename_i h1
    cases h
    have := readNamesGo_ok obj xs [] false _ hx (by simp) h1
    intro x hm
    rcases List.mem_append.1 hm with hm | hm
    · exact this.1 x hm
    · exact this.2 x hm

theorem WellDeclared.readTypes {D D' : PDecls} {xs : List SX} (h : WellDeclared D) (hx : SXOKs xs) (hd : readTypes D xs = .ok D') :
    WellDeclared D' ∧ D.Below D' := by
  unfold Tarski.readTypes at hd
  split at hd
  · cases hd
  · exact h.createSorts hd (readNames_ok hx ‹_›)

theorem WellDeclared.readObjects {D D' : PDecls} {xs : List SX} (h : WellDeclared D) (hx : SXOKs xs) (hd : readObjects D xs = .ok D') :
    WellDeclared D' ∧ D.Below D' := by
  unfold Tarski.readObjects at hd
  split at hd
  · cases hd
  · exact h.createConsts hd (readNames_ok hx ‹_›)

/-- What is read of a list of variables. -/
theorem mkVars_ok {L : RLang} {names : List String} {s : String} {vs : List Var} (hn : ∀ n ∈ names, ∃ m, n = "?" ++ m ∧ NameTok m)
    (h : mkVars L names s = .ok vs) : ∀ v ∈ vs, (∃ n, v.sym = "?" ++ n ∧ LowerName n) ∧ L.hasSort v.sort = true := by
  unfold mkVars at h
  split at h
  · cases h; simp
  · split at h
    · rename_i hs
      cases h
      intro v hv
      obtain ⟨n, hm, rfl⟩ := List.mem_map.1 hv
      obtain ⟨m, rfl, hk⟩ := hn n hm
      exact ⟨⟨lowerS m, lowerS_var m, hk.lower⟩, hs⟩
    · cases h

theorem readVarsGo_ok (L : RLang) : ∀ (xs : List SX) (pend : List String) (vs : List Var), SXOKs xs →
    (∀ n ∈ pend, ∃ m, n = "?" ++ m ∧ NameTok m) → readVarsGo L pend xs = .ok vs →
    ∀ v ∈ vs, (∃ n, v.sym = "?" ++ n ∧ LowerName n) ∧ L.hasSort v.sort = true := by
  intro xs
  induction h : xs.length using Nat.strong_induction_on generalizing xs with
  | _ k ih =>
    intro pend vs hx hp hr
    subst h
    unfold readVarsGo at hr
    split at hr
    · exact mkVars_ok hp hr
    · refine ih _ (by simp) _ rfl _ _ hx.2 ?_ hr
      intro n hn
      rcases List.mem_append.1 hn with hn | hn
      · exact hp n hn
      · rw [List.mem_singleton.1 hn]; exact hx.1
    · split at hr
      · cases hr
      · split at hr
        · cases hr
        · split at hr
          · cases hr
          · rename_i h1
            split at hr
            · cases hr
            · rename_i h2
              cases hr
              have a := mkVars_ok hp h1
              have b := ih _ (by simp; omega) _ rfl _ _ hx.2.2 (by simp) h2
              intro v hv
              rcases List.mem_append.1 hv with hv | hv
              · exact a v hv
              · exact b v hv
    · cases hr

theorem readVarsList_ok {L : RLang} {xs : List SX} {vs : List Var} (hx : SXOKs xs) (h : readVarsList L xs = .ok vs) :
    ∀ v ∈ vs, (∃ n, v.sym = "?" ++ n ∧ LowerName n) ∧ L.hasSort v.sort = true := readVarsGo_ok L xs [] vs hx (by simp) h

theorem WellDeclared.readPredDecl {D D' : PDecls} {x : SX} (h : WellDeclared D) (hx : SXOK x) (hd : readPredDecl D x = .ok D') :
    WellDeclared D' ∧ D.Below D' := by
  unfold Tarski.readPredDecl at hd
  split at hd
  · split at hd
    · cases hd
    · rename_i p vs _ ws hv
      split at hd
      · cases hd
      · rename_i hu
        cases hd
        have hu := PDecls.unused h.strs (n := lowerS p) (by simpa using hu)
        have hbl : D.Below { D with preds := D.preds ++ [(lowerS p, ws.map Var.sort)] } :=
          ⟨fun _ _ h => h, le_refl _, fun _ _ h => h, fun _ _ h => dlookup_append h, fun _ _ h => h⟩
        refine ⟨h.extend hbl ?_ h.sorts h.sortNames h.intervals (fun _ => .inl) ?_ (fun _ => .inl), hbl⟩
        · have key := nodup_put3 h.names hu
          simp only [PDecls.vocabulary, List.map_append, List.map_cons, List.map_nil]
          exact key
        · intro q hq
          rcases List.mem_append.1 hq with hq | hq
          · exact .inl hq
          · rw [List.mem_singleton.1 hq]
            refine .inr ⟨NameTok.lower hx.1.1, fun s hs => ?_⟩
            obtain ⟨v, hv', rfl⟩ := List.mem_map.1 hs
            exact (readVarsList_ok hx.2 hv v hv').2
  · cases hd

theorem WellDeclared.readPredDecls : ∀ {xs : List SX} {D D' : PDecls}, WellDeclared D → SXOKs xs → readPredDecls D xs = .ok D' →
    WellDeclared D' ∧ D.Below D'
  | [], D, D', h, _, hd => by cases hd; exact ⟨h, .refl _⟩
  | x :: xs, D, D', h, hx, hd => by
    simp only [Tarski.readPredDecls] at hd
    split at hd
    · cases hd
    · have a := h.readPredDecl hx.1 ‹_›
      have b := a.1.readPredDecls hx.2 hd
      exact ⟨b.1, a.2.trans b.2⟩

theorem actionName_ok {t : PTok} {f : String} (ht : TokOK t) (h : actionName t = some f) : AName f ∨ ∃ n, f = "@" ++ n ∧ NameTok n := by
  cases t <;> simp only [actionName] at h <;> cases h
  · exact .inl ⟨ht.2, ht.1⟩
  · exact .inr ht

theorem WellDeclared.readFunDecl {D D' : PDecls} {x : SX} {s : String} (h : WellDeclared D) (hx : SXOK x) (hd : readFunDecl D x s = .ok D') :
    WellDeclared D' ∧ D.Below D' := by
  unfold Tarski.readFunDecl at hd
  split at hd
  · rename_i t vs
    split at hd
    · cases hd
    · rename_i f hf
      split at hd
      · cases hd
      · rename_i ws hv
        split at hd
        · cases hd
        · rename_i hu
          split at hd
          · rename_i hs
            cases hd
            have hu := PDecls.unused h.strs (n := lowerS f) (by simpa using hu)
            have hbl : D.Below { D with funs := D.funs ++ [(lowerS f, ws.map Var.sort, s)] } :=
              ⟨fun _ _ h => h, le_refl _, fun _ _ h => h, fun _ _ h => h, fun _ _ h => dlookup_append h⟩
            refine ⟨h.extend hbl ?_ h.sorts h.sortNames h.intervals (fun _ => .inl) (fun _ => .inl) ?_, hbl⟩
            · have key := nodup_put4 h.names hu
              simp only [PDecls.vocabulary, List.map_append, List.map_cons, List.map_nil]
              exact key
            · intro q hq
              rcases List.mem_append.1 hq with hq | hq
              · exact .inl hq
              · rw [List.mem_singleton.1 hq]
                refine .inr ⟨?_, fun s hs => ?_, hs⟩
                · rcases actionName_ok hx.1 hf with h | ⟨n, rfl, h⟩
                  · exact .inl (NameTok.lower h.2)
                  · exact .inr ⟨lowerS n, lowerS_ext n, h.lower⟩
                · obtain ⟨v, hv', rfl⟩ := List.mem_map.1 hs
                  exact (readVarsList_ok hx.2 hv v hv').2
          · cases hd
  · cases hd

theorem WellDeclared.readFunDecls : ∀ (xs : List SX) {D D' : PDecls}, WellDeclared D → SXOKs xs → readFunDecls D xs = .ok D' →
    WellDeclared D' ∧ D.Below D' := by
  intro xs
  induction hl : xs.length using Nat.strong_induction_on generalizing xs with
  | _ k ih =>
    intro D D' h hx hd
    subst hl
    cases xs with
    | nil => simp only [Tarski.readFunDecls, Except.ok.injEq] at hd; subst hd; exact ⟨h, .refl _⟩
    | cons x xs =>
      unfold Tarski.readFunDecls at hd
      split at hd
      · split at hd
        · cases hd
        · split at hd
          · cases hd
          · have a := h.readFunDecl hx.1 ‹_›
            have b := ih _ (by simp; omega) _ rfl a.1 hx.2.2.2 hd
            exact ⟨b.1, a.2.trans b.2⟩
      · split at hd
        · cases hd
        · have a := h.readFunDecl hx.1 ‹_›
          have b := ih _ (by simp) _ rfl a.1 hx.2 hd
          exact ⟨b.1, a.2.trans b.2⟩

/-! ### Loading the arithmetic theory, sections -/

theorem PDecls.loadArith_ok {D D' : PDecls} (hn : D.numeric = false) (h : D.loadArith = .ok D') :
    D' = { D with arithmetic := true } ∧ (∀ n ∈ ["Real", "Integer", "Natural"], D.used n = false) ∧ D.allSorts = D.sorts ∧
      ({ D with arithmetic := true } : PDecls).allSorts = builtinSorts ++ D.sorts := by
  unfold PDecls.loadArith at h
  split at h
  · cases h
  · rename_i hu
    cases h
    refine ⟨rfl, fun n hn => ?_, ?_, ?_⟩
    · simp only [List.any_eq_true, not_exists, not_and, Bool.not_eq_true] at hu
      exact hu n (by simp only [List.mem_cons, List.not_mem_nil, or_false] at hn ⊢; tauto)
    · simp [PDecls.allSorts, hn]
    · simp [PDecls.allSorts, PDecls.numeric]

theorem WellDeclared.loadArith {D D' : PDecls} (h : WellDeclared D) (hn : D.numeric = false) (hd : D.loadArith = .ok D') :
    WellDeclared D' ∧ D.Below D' := by
  obtain ⟨rfl, hu, e1, e2⟩ := PDecls.loadArith_ok hn hd
  have hv : ∀ n ∈ ["Real", "Integer", "Natural"], Name.str n ∉ D.vocabulary := fun n hm => PDecls.unused h.strs (hu n hm)
  have hs : ∀ n ∈ ["Real", "Integer", "Natural"], n ∉ D.sorts.map SDecl.name := by
    intro n hm hmem
    apply hv n hm
    simp only [PDecls.vocabulary, List.mem_append]
    exact .inl (.inl (.inl (List.mem_map.2 ⟨n, by rw [e1]; exact List.mem_cons_of_mem _ hmem, rfl⟩)))
  have hbl : D.Below { D with arithmetic := true } := by
    refine ⟨fun s d hd => ?_, by rw [e1, e2]; simp, fun _ _ h => h, fun _ _ h => h, fun _ _ h => h⟩
    simp only [PDecls.sort, e1, e2] at hd ⊢
    have hm : s ∈ D.sorts.map SDecl.name := by
      have h1 := List.mem_of_find?_eq_some hd
      have h2 : d.name = s := by simpa using List.find?_some hd
      exact List.mem_map.2 ⟨d, h1, h2⟩
    rw [List.find?_append]
    have : builtinSorts.find? (fun d => d.name == s) = none := by
      rw [List.find?_eq_none]
      intro x hx
      simp only [beq_iff_eq]
      rintro rfl
      refine hs _ ?_ hm
      simp only [builtinSorts, List.mem_cons, List.not_mem_nil, or_false] at hx ⊢
      rcases hx with rfl | rfl | rfl <;> simp
    rw [this]
    exact hd
  refine ⟨h.extend hbl ?_ ?_ h.sortNames h.intervals (fun _ => .inl) (fun _ => .inl) (fun _ => .inl), hbl⟩
  · have h0 := h.names
    simp only [PDecls.vocabulary, e1, e2] at h0 hv ⊢
    have p1 := nodup_put (A := [Name.str "object"]) (x := Name.str "Natural") (B := (D.sorts.map SDecl.name).map Name.str ++ D.consts.map Prod.fst ++
      D.preds.map (fun p => .str p.1) ++ D.funs.map (fun f => .str f.1)) (by simpa using h0) (by simpa using hv "Natural" (by simp))
    have p2 := nodup_put (A := [Name.str "object"]) (x := Name.str "Integer") p1 (by
      have := hv "Integer" (by simp)
      simp only [List.mem_append, List.mem_cons, List.map_cons, not_or] at this ⊢
      simp only [reduceCtorEq, Name.str.injEq, String.reduceEq, not_false_eq_true, true_and]
      tauto)
    have p3 := nodup_put (A := [Name.str "object"]) (x := Name.str "Real") p2 (by
      have := hv "Real" (by simp)
      simp only [List.mem_append, List.mem_cons, List.map_cons, not_or] at this ⊢
      simp only [reduceCtorEq, Name.str.injEq, String.reduceEq, not_false_eq_true, true_and]
      tauto)
    simpa [builtinSorts] using p3
  · rw [e2]
    have h0 := h.sorts
    rw [e1] at h0
    refine ⟨by decide, by decide, by decide, by decide, by decide, by decide, h0.weaken (by simp) ?_⟩
    intro d hd hm
    have hd' : d.name ∈ D.sorts.map SDecl.name := List.mem_map.2 ⟨d, hd, rfl⟩
    simp only [List.mem_cons, List.not_mem_nil, or_false] at hm ⊢
    rcases hm with hm | hm | hm | hm
    · exact absurd (hm ▸ hd') (hs "Natural" (by simp))
    · exact absurd (hm ▸ hd') (hs "Integer" (by simp))
    · exact absurd (hm ▸ hd') (hs "Real" (by simp))
    · exact hm

theorem WellDeclared.readRequire {D D' : PDecls} {xs : List SX} (h : WellDeclared D) (hd : readRequire D xs = .ok D') :
    WellDeclared D' ∧ D.Below D' := by
  unfold Tarski.readRequire at hd
  split at hd
  · split at hd
    · rename_i hc
      simp only [Bool.and_eq_true, Bool.not_eq_true'] at hc
      split at hd
      · cases hd
      · have a := h.loadArith hc.2 ‹_›
        have b := a.1.createSort hd ⟨'n', "umber".toList, rfl, by decide, by decide⟩
        exact ⟨b.1, a.2.trans b.2⟩
    · split at hd
      · rename_i hc
        simp only [Bool.and_eq_true, Bool.not_eq_true'] at hc
        exact h.loadArith hc.2 hd
      · cases hd; exact ⟨h, .refl _⟩
  · cases hd

theorem secOf_ok {k : CKw} {x : SX} {xs : List SX} (hx : SXOK x) (h : secOf k x = some xs) : SXOKs xs := by
  unfold secOf at h
  split at h
  · split at h <;> cases h
    exact hx.2
  · cases h

theorem WellDeclared.readSec {D D' : PDecls} {k : CKw} {f : PDecls → List SX → Except Err PDecls} {xs ys : List SX} (h : WellDeclared D) (hx : SXOKs xs)
    (hf : ∀ {D D' : PDecls} {xs : List SX}, WellDeclared D → SXOKs xs → f D xs = .ok D' → WellDeclared D' ∧ D.Below D')
    (hd : readSec k f D xs = .ok (D', ys)) : (WellDeclared D' ∧ D.Below D') ∧ SXOKs ys := by
  unfold Tarski.readSec at hd
  split at hd
  · cases hd; exact ⟨⟨h, .refl _⟩, trivial⟩
  · split at hd
    · cases hd; exact ⟨⟨h, .refl _⟩, hx⟩
    · split at hd
      · cases hd
      · cases hd
        exact ⟨hf h (secOf_ok hx.1 ‹_›) ‹_›, hx.2⟩

/-- The languages through which the reader of a domain goes. -/
theorem readDomain_decls {D0 : PDecls} {x : SX} {P : PDomain} (h : WellDeclared D0) (hx : SXOK x) (hd : readDomain D0 x = .ok P) :
    WellDeclared P.lang ∧ D0.Below P.lang ∧ ∃ xs as, SXOKs xs ∧ readStructures P.lang [] xs = .ok as ∧ uniformCosts P.lang as = .ok P.actions := by
  unfold readDomain at hd
  split at hd
  · split at hd
    · cases hd
    · rename_i h1
      obtain ⟨⟨w1, b1⟩, o1⟩ := h.readSec hx.2.2 (fun h _ hd => h.readRequire hd) h1
      split at hd
      · cases hd
      · rename_i h2
        obtain ⟨⟨w2, b2⟩, o2⟩ := w1.readSec o1 (fun h hx hd => h.readTypes hx hd) h2
        split at hd
        · cases hd
        · rename_i h3
          obtain ⟨⟨w3, b3⟩, o3⟩ := w2.readSec o2 (fun h hx hd => h.readObjects hx hd) h3
          split at hd
          · cases hd
          · rename_i h4
            obtain ⟨⟨w4, b4⟩, o4⟩ := w3.readSec o3 (fun h hx hd => h.readPredDecls hx hd) h4
            split at hd
            · cases hd
            · rename_i h5
              obtain ⟨⟨w5, b5⟩, o5⟩ := w4.readSec o4 (fun h hx hd => WellDeclared.readFunDecls _ h hx hd) h5
              split at hd
              · cases hd
              · rename_i h6
                split at hd
                · cases hd
                · rename_i h7
                  cases hd
                  exact ⟨w5, (((b1.trans b2).trans b3).trans b4).trans b5, _, _, o5, h6, h7⟩
  · cases hd

/-! ### Terms and formulas -/

theorem forall2_right {α β} {R : α → β → Prop} {Q : β → Prop} : ∀ {l : List α} {m : List β}, List.Forall₂ R l m → (∀ a b, R a b → Q b) → ∀ b ∈ m, Q b
  | _, _, .nil, _, b, h => by cases h
  | _, _, .cons h hs, hq, b, hb => by
    rcases List.mem_cons.1 hb with rfl | hb
    · exact hq _ _ h
    · exact forall2_right hs hq b hb

theorem scopedTs_iff {D : PDecls} {sc : Var → Prop} : ∀ ts, ScopedTs D sc ts ↔ ∀ t ∈ ts, ScopedT D sc t
  | [] => by simp [ScopedTs]
  | t :: ts => by simp [ScopedTs, scopedTs_iff ts]

theorem scopedFs_iff {D : PDecls} {sc : Var → Prop} : ∀ ts, ScopedFs D sc ts ↔ ∀ t ∈ ts, ScopedF D sc t
  | [] => by simp [ScopedFs]
  | t :: ts => by simp [ScopedFs, scopedFs_iff ts]

theorem scopedEs_iff {D : PDecls} {sc : Var → Prop} : ∀ ts, ScopedEs D sc ts ↔ ∀ t ∈ ts, ScopedE D sc t
  | [] => by simp [ScopedEs]
  | t :: ts => by simp [ScopedEs, scopedEs_iff ts]

mutual
theorem ScopedT.scope {D : PDecls} {sc sc' : Var → Prop} (h : ∀ v, sc v → sc' v) : ∀ t, ScopedT D sc t → ScopedT D sc' t
  | .var v, ht => h v ht
  | .const _ _, ht => ht
  | .app _ ts, ht => ⟨ht.1, ScopedTs.scope h ts ht.2⟩
  | .ite _ _ _, ht => ht
theorem ScopedTs.scope {D : PDecls} {sc sc' : Var → Prop} (h : ∀ v, sc v → sc' v) : ∀ ts, ScopedTs D sc ts → ScopedTs D sc' ts
  | [], _ => trivial
  | t :: ts, ht => ⟨ScopedT.scope h t ht.1, ScopedTs.scope h ts ht.2⟩
end

theorem ScopedAtom.scope {D : PDecls} {sc sc' : Var → Prop} (h : ∀ v, sc v → sc' v) {p ts} (ha : ScopedAtom D sc p ts) : ScopedAtom D sc' p ts :=
  ⟨ScopedTs.scope h ts ha.1, ha.2⟩

mutual
theorem ScopedF.scope {D : PDecls} : ∀ (f : Formula) {sc sc' : Var → Prop}, (∀ v, sc v → sc' v) → ScopedF D sc f → ScopedF D sc' f
  | .top, _, _, _, _ => trivial
  | .bot, _, _, _, hf => hf.elim
  | .atom _ _, _, _, h, hf => ScopedAtom.scope h hf
  | .comp _ _ fs, _, _, h, hf => ⟨hf.1, hf.2.1, ScopedFs.scope fs h hf.2.2⟩
  | .quant _ _ f, _, _, h, ⟨ws, e0, e, hs, hf⟩ => ⟨ws, e0, e, hs, ScopedF.scope f (fun v hv => hv.imp_left (h v)) hf⟩
theorem ScopedFs.scope {D : PDecls} : ∀ (fs : List Formula) {sc sc' : Var → Prop}, (∀ v, sc v → sc' v) → ScopedFs D sc fs → ScopedFs D sc' fs
  | [], _, _, _, _ => trivial
  | f :: fs, _, _, h, hf => ⟨ScopedF.scope f h hf.1, ScopedFs.scope fs h hf.2⟩
end

mutual
theorem ScopedE.scope {D : PDecls} : ∀ (e : Effect) {sc sc' : Var → Prop}, (∀ v, sc v → sc' v) → ScopedE D sc e → ScopedE D sc' e
  | .add c _ _, _, _, h, he => ⟨ScopedF.scope c h he.1, ScopedAtom.scope h he.2⟩
  | .del c _ _, _, _, h, he => ⟨ScopedF.scope c h he.1, ScopedAtom.scope h he.2⟩
  | .lit _ _, _, _, _, he => he
  | .assign c _ _ _, _, _, h, he => ⟨ScopedF.scope c h he.1, ScopedT.scope h _ he.2.1, ScopedT.scope h _ he.2.2⟩
  | .univ c _ es, _, _, h, he => ⟨ScopedF.scope c h he.1, he.2.1, ScopedEs.scope es (fun v hv => hv.imp_left (h v)) he.2.2⟩
theorem ScopedEs.scope {D : PDecls} : ∀ (es : List Effect) {sc sc' : Var → Prop}, (∀ v, sc v → sc' v) → ScopedEs D sc es → ScopedEs D sc' es
  | [], _, _, _, _ => trivial
  | e :: es, _, _, h, he => ⟨ScopedE.scope e h he.1, ScopedEs.scope es h he.2⟩
end

/-- The variables that a binding knows. -/
def bindingScope (b : Option VBinding) (v : Var) : Prop := match b with
  | none => False
  | some b => ∃ n, b.get n = .ok v

theorem get_iff {b : VBinding} {n : String} {v : Var} : b.get n = .ok v ↔ dlookup b.variables n = some v := by
  unfold VBinding.get
  split <;> simp_all

section
variable {D : PDecls} (W : WellDeclared D)
include W

theorem WellDeclared.constKeys : (D.consts.map Prod.fst).Nodup := by
  have h := W.names
  simp only [PDecls.vocabulary] at h
  exact (List.nodup_append.1 (List.nodup_append.1 (List.nodup_append.1 h).1).1).2.1

theorem WellDeclared.contains_int {s : String} {i : Int} (h : D.contains s (.int i) = true) : (D.bounds s).isSome = true := by
  unfold PDecls.contains at h
  cases hb : D.bounds s with
  | some b => rfl
  | none =>
    rw [hb] at h
    simp only [List.any_eq_true, Bool.and_eq_true, decide_eq_true_eq] at h
    obtain ⟨c, hc, h1, -⟩ := h
    obtain ⟨n, hn⟩ := W.strs c hc
    rw [hn] at h1
    cases h1

theorem WellDeclared.castInt {s : String} {i : Int} {n : Name} (h : D.castInt s i = .ok n) : (∃ i, n = .int i) ∧ (D.bounds s).isSome = true := by
  unfold PDecls.castInt at h
  split at h
  · cases h
    exact ⟨⟨i, rfl⟩, W.contains_int ‹_›⟩
  · cases h

theorem WellDeclared.constOf {sc : Var → Prop} {s : String} {i : Int} {t : Term} (h : D.rlang.constOf s i = .ok t) :
    ScopedT D sc t ∧ D.rlang.sortOf t = s := by
  unfold RLang.constOf at h
  split at h
  · cases h
  · cases h
    exact ⟨.inr (W.castInt ‹_›), by simp [RLang.sortOf]⟩

omit W in
theorem isSubRefl (s : String) : D.isSub s s = true := subGo_refl ..

/-- A value that was read is in scope, if it is a term. -/
def ScopedV (D : PDecls) (sc : Var → Prop) (v : RVal) : Prop := ∀ t, v = .term t → ScopedT D sc t

theorem WellDeclared.castPair {sc : Var → Prop} {l r : RVal} {a b : Term} (hl : ScopedV D sc l) (hr : ScopedV D sc r)
    (h : castPair D.rlang l r = .ok (a, b)) : ScopedT D sc a ∧ ScopedT D sc b := by
  match l, r, h with
  | .term x, .term y, h =>
    simp only [Tarski.castPair, Except.ok.injEq, Prod.mk.injEq] at h
    exact ⟨h.1 ▸ hl x rfl, h.2 ▸ hr y rfl⟩
  | .term x, .num n, h =>
    simp only [Tarski.castPair] at h
    split at h <;> cases h
    exact ⟨hl _ rfl, (W.constOf ‹_›).1⟩
  | .num n, .term x, h =>
    simp only [Tarski.castPair] at h
    split at h <;> cases h
    exact ⟨(W.constOf ‹_›).1, hr _ rfl⟩
  | .num n, .num m, h =>
    simp only [Tarski.castPair] at h
    split at h
    · split at h <;> cases h
      exact ⟨(W.constOf ‹_›).1, (W.constOf ‹_›).1⟩
    · cases h

theorem WellDeclared.mkArith {sc : Var → Prop} {ld : Bool} {f : String} {l r : RVal} {t : Term} (hf : f ∈ builtinBinary) (hl : ScopedV D sc l)
    (hr : ScopedV D sc r) (h : mkArith D.rlang ld f l r = .ok t) : ScopedT D sc t := by
  unfold Tarski.mkArith at h
  split at h
  · split at h
    · cases h
    · rename_i a b hab
      obtain ⟨ha, hb⟩ := W.castPair hl hr hab
      split at h <;> cases h
      rename_i hc
      rw [Bool.and_eq_true] at hc
      refine ⟨.inl ⟨hf, rfl, ?_⟩, ha, hb, trivial⟩
      simp only [List.mem_cons, List.not_mem_nil, or_false, forall_eq_or_imp, forall_eq]
      exact hc
  · cases h

theorem WellDeclared.mkCmp {sc : Var → Prop} {c : Cmp} {l r : RVal} {f : Formula} (hl : ScopedV D sc l) (hr : ScopedV D sc r)
    (h : mkCmp D.rlang c l r = .ok f) : ScopedF D sc f := by
  unfold Tarski.mkCmp at h
  split at h
  · split at h
    · cases h
    · rename_i a b hab
      obtain ⟨ha, hb⟩ := W.castPair hl hr hab
      split at h <;> cases h
      rename_i hc
      rw [Bool.and_eq_true] at hc
      refine ⟨⟨ha, hb, trivial⟩, rfl, ?_⟩
      have e : (if c = .eq ∨ c = .ne then "object" else "Real") = c.argSort := by cases c <;> rfl
      rw [e]
      simp only [List.mem_cons, List.not_mem_nil, or_false, forall_eq_or_imp, forall_eq]
      exact hc
  · cases h

omit W in
theorem atomArgs_ok {sc : Var → Prop} : ∀ {vs : List RVal} {ss : List String} {ts : List Term}, vs.length = ss.length → (∀ v ∈ vs, ScopedV D sc v) →
    atomArgs D.rlang vs ss = .ok ts → ScopedTs D sc ts ∧ List.Forall₂ (fun t s => D.isSub (D.rlang.sortOf t) s = true) ts ss
  | [], [], ts, _, _, h => by cases h; exact ⟨trivial, .nil⟩
  | .num _ :: _, _ :: _, _, _, _, h => by simp only [atomArgs] at h; cases h
  | .term t :: vs, s :: ss, ts, hl, hv, h => by
    simp only [atomArgs] at h
    split at h
    · rename_i hs
      split at h <;> cases h
      have := atomArgs_ok (by simpa using hl) (fun v hm => hv v (by simp [hm])) ‹_›
      exact ⟨⟨hv _ (by simp) t rfl, this.1⟩, .cons hs this.2⟩
    · cases h

omit W in
theorem dlookup_mem {α β} [DecidableEq α] {d : List (α × β)} {k : α} {v : β} (h : dlookup d k = some v) : (k, v) ∈ d := by
  induction d with
  | nil => simp [dlookup] at h
  | cons x d ih =>
    simp only [dlookup] at h
    split at h
    · rename_i hk
      cases h
      rw [← hk]; simp
    · exact List.mem_cons_of_mem _ (ih h)

omit W in
theorem mkUserAtom_ok {sc : Var → Prop} {p : String} {vs : List RVal} {f : Formula} (hv : ∀ v ∈ vs, ScopedV D sc v)
    (h : mkUserAtom D.rlang p vs = .ok f) : ∃ ts, f = .atom (.user (lowerS p)) ts ∧ ScopedAtom D sc (.user (lowerS p)) ts := by
  unfold mkUserAtom at h
  split at h
  · cases h
  · rename_i ss hp
    split at h
    · cases h
    · rename_i hl
      split at h <;> cases h
      have := atomArgs_ok (by simpa using hl) hv ‹_›
      exact ⟨_, rfl, this.1, ss, dlookup_mem hp, this.2⟩

theorem WellDeclared.funArgs {sc : Var → Prop} : ∀ {vs : List RVal} {ss : List String} {ts : List Term}, vs.length = ss.length →
    (∀ v ∈ vs, ScopedV D sc v) → funArgs D.rlang vs ss = .ok ts → ScopedTs D sc ts ∧ List.Forall₂ (fun t s => D.isSub (D.rlang.sortOf t) s = true) ts ss
  | [], [], ts, _, _, h => by cases h; exact ⟨trivial, .nil⟩
  | .num i :: vs, s :: ss, ts, hl, hv, h => by
    simp only [Tarski.funArgs] at h
    split at h
    · cases h
    · rename_i hc
      obtain ⟨a, b⟩ := W.constOf (sc := sc) hc
      split at h <;> cases h
      have := WellDeclared.funArgs (by simpa using hl) (fun v hm => hv v (by simp [hm])) ‹_›
      exact ⟨⟨a, this.1⟩, .cons (by rw [b]; exact isSubRefl s) this.2⟩
  | .term t :: vs, s :: ss, ts, hl, hv, h => by
    simp only [Tarski.funArgs] at h
    split at h
    · cases h
    · rename_i hs
      split at h <;> cases h
      have := WellDeclared.funArgs (by simpa using hl) (fun v hm => hv v (by simp [hm])) ‹_›
      refine ⟨⟨hv _ (by simp) t rfl, this.1⟩, .cons ?_ this.2⟩
      by_cases he : D.rlang.sortOf t = s
      · rw [he]; exact isSubRefl s
      · by_contra hn
        exact hs ⟨he, Bool.eq_false_iff.2 hn⟩

theorem WellDeclared.mkUserApp {sc : Var → Prop} {f : String} {vs : List RVal} {t : Term} (hv : ∀ v ∈ vs, ScopedV D sc v)
    (h : mkUserApp D.rlang f vs = .ok t) : ScopedT D sc t := by
  unfold Tarski.mkUserApp at h
  split at h
  · cases h
  · rename_i ss s hp
    split at h
    · cases h
    · rename_i hl
      split at h <;> cases h
      have := W.funArgs (by simpa [eq_comm] using hl) hv ‹_›
      exact ⟨.inr ⟨ss, s, dlookup_mem hp, this.2⟩, this.1⟩

omit W in
theorem readVar_scoped {b : Option VBinding} {s : String} {t : Term} (h : readVar b s = .ok t) : ScopedT D (bindingScope b) t := by
  unfold readVar at h
  split at h
  · cases h
  · split at h <;> cases h
    exact ⟨_, ‹_›⟩

omit W in
theorem readObject_ok {sc : Var → Prop} {s : String} {t : Term} (h : readObject D.rlang s = .ok t) : ScopedT D sc t := by
  unfold readObject at h
  split at h <;> cases h
  rename_i hc
  exact .inl (dlookup_mem hc)

omit W in
theorem ScopedV.mk {sc : Var → Prop} {t : Term} (h : ScopedT D sc t) : ScopedV D sc (.term t) := fun _ e => by cases e; exact h

omit W in
theorem arName_ok {c : Char} {f : String} (h : arName c = .ok f) : f ∈ builtinBinary := by
  unfold arName at h
  split at h
  · cases h; decide
  · split at h
    · cases h; decide
    · split at h <;> cases h
      decide

mutual
theorem WellDeclared.readT {b : Option VBinding} : ∀ (x : SX) {v : RVal}, readT D.rlang b x = .ok v → ScopedV D (bindingScope b) v := by
  intro x v h
  unfold Tarski.readT at h
  split at h
  · split at h <;> cases h
    exact .mk (readObject_ok ‹_›)
  · split at h <;> cases h
    exact fun _ e => nomatch e
  · split at h <;> cases h
    exact .mk (readVar_scoped ‹_›)
  · split at h
    · cases h
    · rename_i xs _ vs hvs
      split at h <;> cases h
      exact .mk (W.mkUserApp (WellDeclared.readTs xs hvs) ‹_›)
  · rename_i x y
    split at h
    · cases h
    · rename_i h1
      split at h
      · cases h
      · rename_i h2
        split at h
        · cases h
        · split at h <;> cases h
          exact .mk (W.mkArith (arName_ok ‹_›) (WellDeclared.readT x h1) (WellDeclared.readT y h2) ‹_›)
  · rename_i x y
    split at h
    · cases h
    · rename_i h1
      split at h
      · cases h
      · rename_i h2
        split at h <;> cases h
        rename_i h3
        exact .mk (W.mkArith (by decide) (WellDeclared.readT x h1) (WellDeclared.readT y h2) h3)
  · rename_i x y
    split at h
    · cases h
    · rename_i h1
      split at h
      · cases h
      · rename_i h2
        split at h <;> cases h
        rename_i h3
        exact .mk (W.mkArith (by decide) (WellDeclared.readT x h1) (WellDeclared.readT y h2) h3)
  · rename_i x y
    split at h
    · cases h
    · rename_i h1
      split at h
      · cases h
      · rename_i h2
        split at h <;> cases h
        rename_i h3
        exact .mk (W.mkArith (by decide) (WellDeclared.readT x h1) (WellDeclared.readT y h2) h3)
  · cases h
termination_by x => sizeOf x
theorem WellDeclared.readTs {b : Option VBinding} : ∀ (xs : List SX) {vs : List RVal}, readTs D.rlang b xs = .ok vs → ∀ v ∈ vs, ScopedV D (bindingScope b) v
  | [], vs, h => by simp only [Tarski.readTs] at h; cases h; simp
  | x :: xs, vs, h => by
    simp only [Tarski.readTs] at h
    split at h
    · cases h
    · rename_i h1
      split at h
      · cases h
      · rename_i h2
        cases h
        intro v hv
        rcases List.mem_cons.1 hv with rfl | hv
        · exact WellDeclared.readT x h1
        · exact WellDeclared.readTs xs h2 v hv
termination_by xs => sizeOf xs
end

end

theorem dlookup_dinsert_cases {α β} [DecidableEq α] {d : List (α × β)} {k k' : α} {v w : β} (h : dlookup (dinsert d k v) k' = some w) :
    (k = k' ∧ v = w) ∨ dlookup d k' = some w := by
  induction d with
  | nil =>
    simp only [dinsert, dlookup] at h
    split at h
    · cases h; exact .inl ⟨‹_›, rfl⟩
    · cases h
  | cons x d ih =>
    simp only [dinsert] at h
    split at h
    · simp only [dlookup] at h ⊢
      split at h
      · rename_i h1 h2
        cases h
        exact .inl ⟨h1.symm.trans h2, rfl⟩
      · rename_i h1 h2
        rw [if_neg (h1 ▸ h2)]
        exact .inr h
    · simp only [dlookup] at h ⊢
      split at h
      · rw [if_pos ‹_›]; exact .inr h
      · rw [if_neg ‹_›]
        exact ih h

theorem dictOf_mem {α β} [DecidableEq α] {l : List (α × β)} {k : α} {v : β} (h : dlookup (dictOf l) k = some v) : (k, v) ∈ l := by
  have key : ∀ (l : List (α × β)) (d : List (α × β)), dlookup (l.foldl (fun d kv => dinsert d kv.1 kv.2) d) k = some v →
      (k, v) ∈ l ∨ dlookup d k = some v := by
    intro l
    induction l with
    | nil => intro d h; exact .inr h
    | cons x l ih =>
      intro d h
      rcases ih _ h with h | h
      · exact .inl (by simp [h])
      · rcases dlookup_dinsert_cases h with ⟨h1, h2⟩ | h
        · refine .inl ?_
          rw [← h1, ← h2]; simp
        · exact .inr h
  rcases key l [] h with h | h
  · exact h
  · simp [dlookup] at h

theorem ofList_scope {vs : List Var} {v : Var} (h : bindingScope (some (VBinding.ofList vs)) v) : v ∈ vs := by
  obtain ⟨n, hn⟩ := h
  have := dictOf_mem (get_iff.1 hn)
  obtain ⟨w, hw, e⟩ := List.mem_map.1 this
  cases e
  exact hw

theorem pushAll_scope : ∀ {vs : List Var} {b b' : VBinding} {v : Var}, pushAll b vs = .ok b' → bindingScope (some b') v →
    bindingScope (some b) v ∨ v ∈ vs
  | [], b, b', v, h, hv => by simp only [pushAll] at h; cases h; exact .inl hv
  | w :: vs, b, b', v, h, hv => by
    simp only [pushAll] at h
    split at h
    · cases h
    · rename_i c hc
      rcases pushAll_scope h hv with h1 | h1
      · unfold VBinding.add at hc
        split at hc
        · cases hc
        · simp only [Prod.mk.injEq, and_true] at hc
          obtain ⟨n, hn⟩ := h1
          rw [← hc, get_iff] at hn
          rcases dlookup_dinsert_cases hn with ⟨-, h2⟩ | h2
          · rw [h2]; exact .inr (by simp)
          · exact .inl ⟨n, get_iff.2 h2⟩
      · exact .inr (by simp [h1])

theorem pushVars_scope {b : Option VBinding} {b' : VBinding} {vs : List Var} {v : Var} (h : pushVars b vs = .ok b') (hv : bindingScope (some b') v) :
    bindingScope b v ∨ v ∈ vs := by
  unfold pushVars at h
  split at h
  · cases h; exact .inr (ofList_scope hv)
  · exact pushAll_scope h hv

section
variable {D : PDecls} (W : WellDeclared D)
include W

omit W in
theorem ScopedF.quantified {sc : Var → Prop} {q : Quant} {vs : List Var} {f g : Formula} (hv : ∀ v ∈ vs, D.hasSort v.sort = true)
    (hf : ScopedF D (fun v => sc v ∨ v ∈ vs) f) (h : quantified q (vs.map Term.var) f = .ok g) : ScopedF D sc g := by
  unfold Tarski.quantified at h
  split at h
  · cases h
  · rename_i hn
    split at h <;> cases h
    exact ⟨vs, by rintro rfl; simp at hn, rfl, hv, hf⟩

omit W in
theorem ScopedFs.mkComp {sc : Var → Prop} {c : Conn} {fs : List Formula} {g : Formula} (hc : c ≠ .not) (hf : ∀ f ∈ fs, ScopedF D sc f)
    (h : mkComp .list c fs = .ok g) : ScopedF D sc g := by
  unfold Tarski.mkComp at h
  split at h
  · exact absurd rfl hc
  · split at h <;> cases h
    exact ⟨fun e => absurd e hc, fun _ => by omega, (scopedFs_iff fs).2 hf⟩

omit W in
theorem readVarsList_sorts : ∀ {xs : List SX} {pend : List String} {vs : List Var}, readVarsGo D.rlang pend xs = .ok vs →
    ∀ v ∈ vs, D.hasSort v.sort = true := by
  have mk : ∀ {names : List String} {s : String} {vs : List Var}, mkVars D.rlang names s = .ok vs → ∀ v ∈ vs, D.hasSort v.sort = true := by
    intro names s vs h
    unfold mkVars at h
    split at h
    · cases h; simp
    · split at h
      · rename_i hs
        cases h
        intro v hv
        obtain ⟨n, -, rfl⟩ := List.mem_map.1 hv
        exact hs
      · cases h
  intro xs
  induction h : xs.length using Nat.strong_induction_on generalizing xs with
  | _ k ih =>
    intro pend vs hr
    subst h
    unfold readVarsGo at hr
    split at hr
    · exact mk hr
    · exact ih _ (by simp) rfl hr
    · split at hr
      · cases hr
      · split at hr
        · cases hr
        · split at hr
          · cases hr
          · rename_i h1
            split at hr
            · cases hr
            · rename_i h2
              cases hr
              intro v hv
              rcases List.mem_append.1 hv with hv | hv
              · exact mk h1 v hv
              · exact ih _ (by simp; omega) rfl h2 v hv
    · cases hr

mutual
theorem WellDeclared.readF : ∀ (x : SX) {b : Option VBinding} {f : Formula}, readF D.rlang b x = .ok f → ScopedF D (bindingScope b) f := by
  intro x b f h
  unfold Tarski.readF at h
  split at h
  · split at h
    · cases h
    · rename_i xs _ vs hvs
      obtain ⟨ts, rfl, ht⟩ := mkUserAtom_ok (W.readTs xs hvs) h
      exact ht
  · rename_i xs
    split at h
    · cases h
    · cases h; trivial
    · cases h
      have := WellDeclared.readFs xs ‹_›
      exact this _ (by simp)
    · exact ScopedFs.mkComp (by decide) (WellDeclared.readFs xs ‹_›) h
  · rename_i xs
    split at h
    · cases h
    · exact ScopedFs.mkComp (by decide) (WellDeclared.readFs xs ‹_›) h
  · rename_i x
    split at h <;> cases h
    exact ⟨fun _ => rfl, fun e => absurd rfl e, WellDeclared.readF x ‹_›, trivial⟩
  · rename_i x y
    split at h
    · cases h
    · rename_i h1
      split at h <;> cases h
      rename_i h2
      exact ⟨(by intro e; cases e), fun _ => le_refl _, ⟨fun _ => rfl, fun e => absurd rfl e, WellDeclared.readF x h1, trivial⟩, WellDeclared.readF y h2, trivial⟩
  · rename_i ys x
    split at h
    · cases h
    · rename_i h1
      split at h
      · cases h
      · rename_i h2
        split at h
        · cases h
        · rename_i h3
          exact ScopedF.quantified (readVarsList_sorts h1)
            (ScopedF.scope _ (fun v hv => pushVars_scope h2 hv) (WellDeclared.readF x h3)) h
  · rename_i ys x
    split at h
    · cases h
    · rename_i h1
      split at h
      · cases h
      · rename_i h2
        split at h
        · cases h
        · rename_i h3
          exact ScopedF.quantified (readVarsList_sorts h1)
            (ScopedF.scope _ (fun v hv => pushVars_scope h2 hv) (WellDeclared.readF x h3)) h
  · split at h
    · cases h
    · rename_i h1
      split at h
      · cases h
      · rename_i h2
        exact W.mkCmp (W.readT _ h1) (W.readT _ h2) h
  · cases h
termination_by x => sizeOf x
theorem WellDeclared.readFs : ∀ (xs : List SX) {b : Option VBinding} {fs : List Formula}, readFs D.rlang b xs = .ok fs →
    ∀ f ∈ fs, ScopedF D (bindingScope b) f
  | [], b, fs, h => by simp only [Tarski.readFs] at h; cases h; simp
  | x :: xs, b, fs, h => by
    simp only [Tarski.readFs] at h
    split at h
    · cases h
    · rename_i h1
      split at h
      · cases h
      · rename_i h2
        cases h
        intro f hf
        rcases List.mem_cons.1 hf with rfl | hf
        · exact WellDeclared.readF x h1
        · exact WellDeclared.readFs xs h2 f hf
termination_by xs => sizeOf xs
end

/-! ### Effects and actions -/

theorem WellDeclared.readAtomF {b : Option VBinding} {x : SX} {p : PSym} {ts : List Term} (h : readAtomF D.rlang b x = .ok (p, ts)) :
    ScopedAtom D (bindingScope b) p ts := by
  unfold Tarski.readAtomF at h
  split at h
  · split at h
    · cases h
    · rename_i hvs
      split at h
      · rename_i hm
        cases h
        obtain ⟨us, e, ht⟩ := mkUserAtom_ok (W.readTs _ hvs) hm
        cases e
        exact ht
      · cases h
      · cases h
  · cases h

theorem WellDeclared.readFunT {b : Option VBinding} {x : SX} {v : RVal} (h : readFunT D.rlang b x = .ok v) : ScopedV D (bindingScope b) v := by
  unfold Tarski.readFunT at h
  split at h
  · exact W.readT _ h
  · cases h

theorem WellDeclared.mkAssign {sc : Var → Prop} {l r : RVal} {e : Effect} (hl : ScopedV D sc l) (hr : ScopedV D sc r)
    (h : mkAssign D.rlang l r = .ok e) : ScopedE D sc e := by
  unfold Tarski.mkAssign at h
  split at h
  · split at h
    · cases h
      exact ⟨trivial, hl _ rfl, hr _ rfl⟩
    · split at h <;> cases h
      exact ⟨trivial, hl _ rfl, (W.constOf ‹_›).1⟩
  · cases h

omit W in
theorem assignOp_ok {k : Kw} {f : String} (h : assignOp k = some f) : f ∈ builtinBinary := by
  cases k <;> simp only [assignOp] at h <;> cases h <;> decide

theorem WellDeclared.readAssign {b : Option VBinding} {x y : SX} {e : Effect} (h : readAssign D.rlang b x y = .ok e) : ScopedE D (bindingScope b) e := by
  unfold Tarski.readAssign at h
  split at h
  · cases h
  · rename_i h1
    split at h
    · cases h
    · rename_i h2
      exact W.mkAssign (W.readFunT h1) (W.readT _ h2) h

theorem WellDeclared.readUpdate {b : Option VBinding} {op : String} {x y : SX} {e : Effect} (ho : op ∈ builtinBinary)
    (h : readUpdate D.rlang b op x y = .ok e) : ScopedE D (bindingScope b) e := by
  unfold Tarski.readUpdate at h
  split at h
  · cases h
  · rename_i h1
    split at h
    · cases h
    · rename_i h2
      split at h
      · cases h
      · rename_i h3
        exact W.mkAssign (W.readFunT h1) (.mk (W.mkArith ho (W.readFunT h1) (W.readT _ h2) h3)) h

theorem WellDeclared.readAtomic {b : Option VBinding} {x : SX} {e : Effect} (h : readAtomic D.rlang b x = .ok e) : ScopedE D (bindingScope b) e := by
  unfold Tarski.readAtomic at h
  split at h
  · split at h <;> cases h
    exact ⟨trivial, W.readAtomF ‹_›⟩
  · exact W.readAssign h
  · split at h
    · cases h
    · rename_i ho
      exact W.readUpdate (assignOp_ok ho) h
  · split at h <;> cases h
    exact ⟨trivial, W.readAtomF ‹_›⟩

omit W in
theorem ScopedE.withCond {sc : Var → Prop} {c : Formula} (hc : ScopedF D sc c) {e : Effect} (he : ScopedE D sc e) : ScopedE D sc (e.withCond c) := by
  cases e <;> first | exact ⟨hc, he.2⟩ | exact he

theorem WellDeclared.readAtomics {b : Option VBinding} : ∀ {xs : List SX} {es : List Effect}, readAtomics D.rlang b xs = .ok es →
    ∀ e ∈ es, ScopedE D (bindingScope b) e
  | [], es, h => by simp only [Tarski.readAtomics] at h; cases h; simp
  | x :: xs, es, h => by
    simp only [Tarski.readAtomics] at h
    split at h
    · cases h
    · rename_i h1
      split at h
      · cases h
      · rename_i h2
        cases h
        intro e he
        rcases List.mem_cons.1 he with rfl | he
        · exact W.readAtomic h1
        · exact WellDeclared.readAtomics h2 e he

theorem WellDeclared.readWhen {b : Option VBinding} {c x : SX} {es : List Effect} (h : readWhen D.rlang b c x = .ok es) :
    ∀ e ∈ es, ScopedE D (bindingScope b) e := by
  unfold Tarski.readWhen at h
  split at h
  · cases h
  · rename_i hf
    have hc := W.readF _ hf
    split at h
    · split at h <;> cases h
      rename_i h1
      intro e he
      obtain ⟨e', he', rfl⟩ := List.mem_map.1 he
      exact ScopedE.withCond hc (W.readAtomics h1 e' he')
    · split at h <;> cases h
      rename_i h1
      intro e he
      rw [List.mem_singleton.1 he]
      exact ScopedE.withCond hc (W.readAtomic h1)

mutual
theorem WellDeclared.readEff : ∀ (x : SX) {b : Option VBinding} {top : Bool} {es : List Effect}, readEff D.rlang b top x = .ok es →
    ∀ e ∈ es, ScopedE D (bindingScope b) e := by
  intro x b top es h
  unfold Tarski.readEff at h
  split at h
  · rename_i xs
    split at h
    · exact WellDeclared.readEffs xs h
    · cases h
  · rename_i ys x
    split at h
    · cases h
    · rename_i h1
      split at h
      · cases h
      · rename_i h2
        split at h <;> cases h
        rename_i h3
        intro e he
        rw [List.mem_singleton.1 he]
        exact ⟨trivial, readVarsList_sorts h1,
          (scopedEs_iff _).2 fun e he => ScopedE.scope e (fun v hv => pushVars_scope h2 hv) (WellDeclared.readEff x h3 e he)⟩
  · exact W.readWhen h
  · split at h <;> cases h
    rename_i h1
    intro e he
    rw [List.mem_singleton.1 he]
    exact W.readAtomic h1
termination_by x => sizeOf x
theorem WellDeclared.readEffs : ∀ (xs : List SX) {b : Option VBinding} {es : List Effect}, readEffs D.rlang b xs = .ok es →
    ∀ e ∈ es, ScopedE D (bindingScope b) e
  | [], b, es, h => by simp only [Tarski.readEffs] at h; cases h; simp
  | x :: xs, b, es, h => by
    simp only [Tarski.readEffs] at h
    split at h
    · cases h
    · rename_i h1
      split at h
      · cases h
      · rename_i h2
        cases h
        intro e he
        rcases List.mem_append.1 he with he | he
        · exact WellDeclared.readEff x h1 e he
        · exact WellDeclared.readEffs xs h2 e he
termination_by xs => sizeOf xs
end

omit W in
theorem splitCosts_ok {sc : Var → Prop} : ∀ {es simple : List Effect} {costs : List Term}, splitCosts es = .ok (simple, costs) →
    (∀ e ∈ es, ScopedE D sc e) → (∀ e ∈ simple, ScopedE D sc e) ∧ ∀ t ∈ costs, ScopedT D sc t
  | [], simple, costs, h, _ => by simp only [splitCosts] at h; cases h; simp
  | e :: es, simple, costs, h, he => by
    simp only [splitCosts] at h
    split at h
    · cases h
    · rename_i c hc
      split at h
      · cases h
      · rename_i sm cs hr
        have ih := splitCosts_ok hr (fun e h => he e (by simp [h]))
        split at h <;> cases h
        · refine ⟨fun x hx => ?_, ih.2⟩
          rcases List.mem_cons.1 hx with rfl | hx
          · exact he _ (by simp)
          · exact ih.1 x hx
        · rename_i t
          refine ⟨ih.1, fun x hx => ?_⟩
          rcases List.mem_cons.1 hx with rfl | hx
          · unfold costOf at hc
            split at hc
            · split at hc
              · split at hc <;> cases hc
                have := (he _ List.mem_cons_self).2.2
                exact this.2.2.1
              · cases hc
            · cases hc
          · exact ih.2 x hx

theorem WellDeclared.readPre {b : Option VBinding} {x : SX} {f : Formula} (h : readPre D.rlang b x = .ok f) : ScopedF D (bindingScope b) f := by
  unfold Tarski.readPre at h
  split at h
  · cases h; trivial
  · exact W.readF _ h

omit W in
theorem dinsert_keys {α β} [DecidableEq α] {d : List (α × β)} {k : α} {v : β} (h : (d.map Prod.fst).Nodup) : ((dinsert d k v).map Prod.fst).Nodup := by
  have key : ∀ (d : List (α × β)) x, x ∈ (dinsert d k v).map Prod.fst → x = k ∨ x ∈ d.map Prod.fst := by
    intro d
    induction d with
    | nil => intro x hx; simpa [dinsert] using hx
    | cons y d ih =>
      intro x hx
      simp only [dinsert] at hx
      split at hx
      · simp only [List.map_cons, List.mem_cons] at hx ⊢
        rename_i hk
        rcases hx with hx | hx
        · exact .inl (hx.trans hk)
        · exact .inr (.inr hx)
      · simp only [List.map_cons, List.mem_cons] at hx ⊢
        rcases hx with hx | hx
        · exact .inr (.inl hx)
        · exact (ih x hx).imp_right .inr
  induction d with
  | nil => simp [dinsert]
  | cons y d ih =>
    simp only [List.map_cons, List.nodup_cons] at h
    simp only [dinsert]
    split
    · rename_i hk
      simp only [List.map_cons, List.nodup_cons]
      exact ⟨hk ▸ h.1, h.2⟩
    · rename_i hk
      simp only [List.map_cons, List.nodup_cons]
      refine ⟨fun hm => ?_, ih h.2⟩
      rcases key d _ hm with e | e
      · exact hk e
      · exact h.1 e

omit W in
theorem dictOf_keys {α β} [DecidableEq α] (l : List (α × β)) : ((dictOf l).map Prod.fst).Nodup := by
  have key : ∀ (l d : List (α × β)), (d.map Prod.fst).Nodup → ((l.foldl (fun d kv => dinsert d kv.1 kv.2) d).map Prod.fst).Nodup := by
    intro l
    induction l with
    | nil => intro d h; exact h
    | cons x l ih => intro d h; exact ih _ (dinsert_keys h)
  exact key l [] (by simp)

omit W in
theorem dictOf_self {vs : List Var} {kv : String × Var} (h : kv ∈ dictOf (vs.map fun v => (v.sym, v))) : kv.1 = kv.2.sym ∧ kv.2 ∈ vs := by
  have h1 := dlookup_mem_nodup (dictOf_keys _) h
  obtain ⟨w, hw, e⟩ := List.mem_map.1 (dictOf_mem h1)
  have e1 : w.sym = kv.1 := congrArg Prod.fst e
  have e2 : w = kv.2 := congrArg Prod.snd e
  rw [← e1, ← e2]
  exact ⟨rfl, hw⟩

omit W in
theorem ofList_vars (vs : List Var) : ((VBinding.ofList vs).vars.map Var.sym).Nodup ∧ (∀ v ∈ (VBinding.ofList vs).vars, v ∈ vs) ∧
    ∀ v, bindingScope (some (VBinding.ofList vs)) v → v ∈ (VBinding.ofList vs).vars := by
  have hs : (VBinding.ofList vs).vars.map Var.sym = (dictOf (vs.map fun v => (v.sym, v))).map Prod.fst := by
    rw [VBinding.vars, List.map_map]
    exact List.map_congr_left fun kv hkv => (dictOf_self hkv).1.symm
  refine ⟨by rw [hs]; exact dictOf_keys _, ?_, ?_⟩
  · intro v hv
    obtain ⟨kv, hkv, rfl⟩ := List.mem_map.1 hv
    exact (dictOf_self hkv).2
  · rintro v ⟨n, hn⟩
    exact List.mem_map.2 ⟨_, dlookup_mem (get_iff.1 hn), rfl⟩

theorem WellDeclared.readAction {x : SX} {a : PAction} (hx : SXOK x) (h : readAction D.rlang x = .ok a) : ScopedAction D a := by
  unfold Tarski.readAction at h
  split at h
  · split at h
    · cases h
    · rename_i hnm
      split at h
      · cases h
      · rename_i vs _ ws hv
        have hvs := readVarsList_ok hx.2.2.2.1 hv
        obtain ⟨o1, o2, o3⟩ := ofList_vars ws
        split at h
        · cases h
        · rename_i hp
          split at h
          · cases h
          · rename_i he
            split at h
            · cases h
            · rename_i hc
              have k1 := ScopedF.scope _ o3 (W.readPre hp)
              have k2 := splitCosts_ok hc (fun e h => ScopedE.scope e o3 (W.readEff _ he e h))
              split at h <;> cases h
              · exact ⟨actionName_ok hx.2.1 hnm, o1, fun v hv => hvs v (o2 v hv), k1, (scopedEs_iff _).2 k2.1, by intro t e; cases e⟩
              · exact ⟨actionName_ok hx.2.1 hnm, o1, fun v hv => hvs v (o2 v hv), k1, (scopedEs_iff _).2 k2.1, (by intro t e; cases e; exact k2.2 _ (by simp))⟩
  · cases h

theorem WellDeclared.readStructures : ∀ {xs : List SX} {as bs : List PAction}, SXOKs xs → readStructures D as xs = .ok bs →
    (as.map PAction.name).Nodup → (∀ a ∈ as, ScopedAction D a) → (bs.map PAction.name).Nodup ∧ ∀ a ∈ bs, ScopedAction D a
  | [], as, bs, _, h, h1, h2 => by simp only [Tarski.readStructures] at h; cases h; exact ⟨h1, h2⟩
  | x :: xs, as, bs, hx, h, h1, h2 => by
    simp only [Tarski.readStructures] at h
    split at h
    · cases h
    · split at h
      · cases h
      · rename_i a ha
        split at h
        · cases h
        · rename_i hn
          refine WellDeclared.readStructures hx.2 h ?_ ?_
          · rw [List.map_append, List.map_singleton]
            refine List.nodup_append.2 ⟨h1, by simp, ?_⟩
            intro n hn1 m hm e
            rw [List.mem_singleton.1 hm] at e
            obtain ⟨b, hb, rfl⟩ := List.mem_map.1 hn1
            apply hn
            exact List.any_eq_true.2 ⟨b, hb, by simpa using e⟩
          · intro b hb
            rcases List.mem_append.1 hb with hb | hb
            · exact h2 b hb
            · rw [List.mem_singleton.1 hb]
              exact W.readAction hx.1 ha

theorem WellDeclared.uniformCosts {as bs : List PAction} (h : uniformCosts D as = .ok bs)
    (h1 : (as.map PAction.name).Nodup) (h2 : ∀ a ∈ as, ScopedAction D a) : (bs.map PAction.name).Nodup ∧ ∀ a ∈ bs, ScopedAction D a := by
  unfold Tarski.uniformCosts at h
  split at h
  · split at h <;> cases h
    rename_i hn
    refine ⟨?_, ?_⟩
    · rw [List.map_map, List.map_congr_left (g := PAction.name)]
      · exact h1
      · intro a _
        simp only [Function.comp]
        split <;> rfl
    · intro b hb
      obtain ⟨a, ha, rfl⟩ := List.mem_map.1 hb
      have k := h2 a ha
      split
      · exact k
      · refine ⟨k.name, k.distinct, k.params, k.pre, k.effs, fun t e => ?_⟩
        cases e
        refine .inr ⟨⟨0, rfl⟩, ?_⟩
        simp [PDecls.bounds, PDecls.sort, PDecls.allSorts, hn, builtinSorts]
  · cases h; exact ⟨h1, h2⟩

end

/-! ### Initial states -/

/-- The facts and values of a state are about declared symbols and constants. -/
def StateOK (D : PDecls) (m : MState) : Prop :=
  (∀ q pt, m.holds D.mlang q pt = true →
    ∃ ss, (q, ss) ∈ D.preds ∧ List.Forall₂ (ArgOf D) pt ss) ∧
  (∀ f pt v, m.value D.mlang f pt = .ok v →
    ∃ ss s, (f, ss, s) ∈ D.funs ∧ List.Forall₂ (ArgOf D) (pt ++ [v]) (ss ++ [s]))

/-- An argument for a sort: a constant of the language, or a number if the sort is an interval. -/
def ArgOK (D : PDecls) (a : Arg) (s : String) : Prop :=
  ∃ c, a = .const c ∧ ((c.name, c.sort) ∈ D.consts ∨ (∃ i, c.name = .int i) ∧ c.sort = s ∧ (D.bounds s).isSome = true)

/-- Arguments for sorts. -/
def ArgsOK (D : PDecls) : List Arg → List String → Prop
  | [], _ => True
  | _ :: _, [] => False
  | a :: as, s :: ss => ArgOK D a s ∧ ArgsOK D as ss

theorem ArgsOK.snoc {D : PDecls} {v : Arg} {s : String} (hv : ArgOK D v s) : ∀ {as : List Arg} {ss : List String}, as.length = ss.length →
    ArgsOK D as ss → ArgsOK D (as ++ [v]) (ss ++ [s])
  | [], [], _, _ => ⟨hv, trivial⟩
  | _ :: _, _ :: _, hl, h => ⟨h.1, ArgsOK.snoc hv (by simpa using hl) h.2⟩

theorem checkElements_ok {D : PDecls} : ∀ {as : List Arg} {ss : List String} {pt : List Const}, as.length = ss.length → ArgsOK D as ss →
    checkElements D.mlang as ss = .ok pt → List.Forall₂ (ArgOf D) pt ss
  | [], [], pt, _, _, h => by simp only [checkElements] at h; cases h; exact .nil
  | a :: as, s :: ss, pt, hl, ha, h => by
    obtain ⟨⟨c, rfl, hc⟩, ha⟩ := ha
    simp only [checkElements, checkElement] at h
    by_cases hs : D.mlang.isSub c.sort s = true
    · rw [if_pos hs] at h
      simp only at h
      split at h <;> cases h
      exact .cons (hc.imp (fun h => ⟨h, hs⟩) id) (checkElements_ok (by simpa using hl) ha ‹_›)
    · rw [if_neg hs] at h
      cases h

section
variable {D : PDecls} (W : WellDeclared D)
include W

theorem WellDeclared.readCon {x : SX} {c : Const} (h : readCon D.rlang x = .ok (.sym c)) : (c.name, c.sort) ∈ D.consts := by
  unfold Tarski.readCon at h
  split at h
  · split at h <;> cases h
    rename_i hc
    exact dlookup_mem hc
  · cases h
  · cases h

omit W in
theorem readCon_num {x : SX} {t : Text} (hx : SXOK x) (h : readCon D.rlang x = .ok (.num t)) : ∃ c cs, t = c :: cs ∧ (isDig c = true ∨ c = '-') := by
  unfold Tarski.readCon at h
  split at h
  · split at h <;> cases h
  · cases h; exact hx
  · cases h

theorem WellDeclared.castText {s : String} {t : Text} {n : Name} (ht : ∃ c cs, t = c :: cs ∧ (isDig c = true ∨ c = '-'))
    (h : castText D.mlang D.rlang D.real s t = .ok n) : (∃ i, n = .int i) ∧ (D.bounds s).isSome = true := by
  unfold Tarski.castText at h
  split at h
  · split at h
    · split at h
      · split at h
        · exact W.castInt h
        · cases h
      · cases h
    · exact W.castInt h
  · rename_i hi
    split at h
    · rename_i hcn
      exfalso
      have hcn : D.contains s (.str (String.ofList t)) = true := hcn
      have hb : D.bounds s = none := by
        have : ¬ (D.bounds s).isSome = true := hi
        simpa using this
      unfold PDecls.contains at hcn
      rw [hb] at hcn
      simp only [List.any_eq_true, Bool.and_eq_true, decide_eq_true_eq] at hcn
      obtain ⟨c, hc, h1, -⟩ := hcn
      obtain ⟨⟨m, hm, ⟨d, ds, hd, hl, -⟩⟩, -⟩ := W.consts c hc
      rw [hm, Name.str.injEq] at h1
      obtain ⟨e, es, rfl, he⟩ := ht
      rw [h1, String.toList_ofList, List.cons.injEq] at hd
      rw [← hd.1] at hl
      rcases he with he | rfl
      · have : ∀ c ∈ "0123456789".toList, c.isLower = false := by decide
        rw [this e (isDig_cases he)] at hl
        cases hl
      · exact absurd hl (by decide)
    · cases h

theorem WellDeclared.castElement {x : SX} {c : RCon} {s : String} {a : Arg} (hx : SXOK x) (hc : Tarski.readCon D.rlang x = .ok c)
    (h : castElement D.mlang D.rlang D.real c s = .ok a) : ArgOK D a s := by
  unfold Tarski.castElement at h
  split at h
  · cases h
    exact ⟨_, rfl, .inl (W.readCon hc)⟩
  · split at h <;> cases h
    have hk := W.castText (readCon_num hx hc) ‹_›
    exact ⟨_, rfl, .inr ⟨hk.1, rfl, hk.2⟩⟩

theorem WellDeclared.toConstant {x : SX} {c : RCon} {s : String} {a : Arg} (hx : SXOK x) (hc : Tarski.readCon D.rlang x = .ok c)
    (h : toConstant D.mlang D.rlang D.real c s = .ok a) : ArgOK D a s := by
  unfold Tarski.toConstant at h
  split at h
  · split at h <;> cases h
    exact ⟨_, rfl, .inl (W.readCon hc)⟩
  · split at h <;> cases h
    have hk := W.castText (readCon_num hx hc) ‹_›
    exact ⟨_, rfl, .inr ⟨hk.1, rfl, hk.2⟩⟩

omit W in
theorem readCons_len : ∀ {xs : List SX} {cs : List RCon}, readCons D.rlang xs = .ok cs → cs.length = xs.length
  | [], cs, h => by simp only [readCons] at h; cases h; rfl
  | x :: xs, cs, h => by
    simp only [readCons] at h
    split at h
    · cases h
    · split at h <;> cases h
      simp [readCons_len ‹_›]

theorem WellDeclared.castElements : ∀ {xs : List SX} {cs : List RCon} {ss : List String} {as : List Arg}, SXOKs xs →
    readCons D.rlang xs = .ok cs → castElements D.mlang D.rlang D.real cs ss = .ok as → ArgsOK D as ss
  | [], cs, ss, as, _, hc, h => by
    simp only [readCons] at hc; cases hc
    simp only [Tarski.castElements] at h; cases h; trivial
  | x :: xs, cs, ss, as, hx, hc, h => by
    simp only [readCons] at hc
    split at hc
    · cases hc
    · rename_i h1
      split at hc <;> cases hc
      rename_i h2
      cases ss with
      | nil => simp only [Tarski.castElements] at h; cases h; trivial
      | cons s ss =>
        simp only [Tarski.castElements] at h
        split at h
        · cases h
        · rename_i h3
          split at h <;> cases h
          exact ⟨W.castElement hx.1 h1 h3, WellDeclared.castElements hx.2 h2 ‹_›⟩

theorem WellDeclared.toConstants : ∀ {xs : List SX} {cs : List RCon} {ss : List String} {as : List Arg}, SXOKs xs →
    readCons D.rlang xs = .ok cs → toConstants D.mlang D.rlang D.real cs ss = .ok as → ArgsOK D as ss
  | [], cs, ss, as, _, hc, h => by
    simp only [readCons] at hc; cases hc
    simp only [Tarski.toConstants] at h; cases h; trivial
  | x :: xs, cs, ss, as, hx, hc, h => by
    simp only [readCons] at hc
    split at hc
    · cases hc
    · rename_i h1
      split at hc <;> cases hc
      rename_i h2
      cases ss with
      | nil => simp only [Tarski.toConstants] at h; cases h; trivial
      | cons s ss =>
        simp only [Tarski.toConstants] at h
        split at h
        · cases h
        · rename_i h3
          split at h <;> cases h
          exact ⟨W.toConstant hx.1 h1 h3, WellDeclared.toConstants hx.2 h2 ‹_›⟩

/-- A call that the reader makes. -/
def OpOK (D : PDecls) : MOp → Prop
  | .add (.user p) as => ∃ ss, dlookup D.preds p = some ss ∧ ArgsOK D as ss
  | .set f b as v => b = false ∧ ∃ ss s, dlookup D.funs f = some (ss, s) ∧ ArgsOK D as ss ∧ ArgOK D v s
  | _ => False

theorem WellDeclared.initOp {x : SX} {o : MOp} (hx : SXOK x) (h : initOp D.mlang D.rlang D.real x = .ok (some o)) : OpOK D o := by
  unfold Tarski.initOp at h
  split at h
  · split at h
    · cases h
    · rename_i ha
      cases h
      unfold initAdd at ha
      split at ha
      · cases ha
      · rename_i ss hs
        split at ha
        · cases ha
        · split at ha
          · cases ha
          · split at ha <;> cases ha
            exact ⟨ss, hs, W.castElements hx.2 ‹_› ‹_›⟩
  · split at h <;> cases h
  · split at h
    · cases h
    · rename_i ha
      cases h
      unfold initSet at ha
      split at ha
      · cases ha
      · rename_i ss s hs
        split at ha
        · cases ha
        · split at ha
          · cases ha
          · split at ha
            · cases ha
            · split at ha
              · cases ha
              · split at ha <;> cases ha
                rename_i hw _ _ hcs _ _ hv
                exact ⟨rfl, _, _, hs, W.toConstants hx.2.1.2 ‹_› hcs, W.castElement hx.2.2.1 hw hv⟩
  · cases h

theorem WellDeclared.step {m m' : MState} {o : MOp} (ho : OpOK D o) (hm : StateOK D m) (h : m.step D.mlang o = (m', none)) : StateOK D m' := by
  match o, ho with
  | .add (.user p) as, ⟨ss, hs, ha⟩ =>
    simp only [MState.step, MState.add] at h
    split at h
    · cases h
    · rename_i pt hpt
      simp only [Prod.mk.injEq, and_true] at h
      subst h
      have hps : D.mlang.psorts p = ss := by
        show (dlookup D.preds p).getD [] = ss
        rw [hs]; rfl
      unfold checkAssignment at hpt
      split at hpt
      · cases hpt
      · rename_i hl
        rw [hps] at hpt hl
        have hpt := checkElements_ok (by simpa [eq_comm] using hl) ha hpt
        refine ⟨fun q qt hq => ?_, hm.2⟩
        obtain ⟨ext, h1, h2⟩ := (holds_iff _ _ _ _).1 hq
        rcases dlookup_dinsert_cases h1 with ⟨e1, e2⟩ | h1
        · have e1 := psig_inj.1 e1
          subst e1
          rw [← e2, mem_ptAdd] at h2
          rcases h2 with rfl | h2
          · exact ⟨ss, dlookup_mem hs, hpt⟩
          · refine hm.1 _ _ ((holds_iff _ _ _ _).2 ?_)
            cases hd : dlookup m.preds (D.mlang.psig p) with
            | none => rw [hd] at h2; simp at h2
            | some ext' => exact ⟨ext', rfl, by rw [hd] at h2; exact h2⟩
        · exact hm.1 _ _ ((holds_iff _ _ _ _).2 ⟨ext, h1, h2⟩)
  | .set f b as v, ⟨hb, ss, s, hs, ha, hv⟩ =>
    subst hb
    obtain ⟨c, rfl, hc⟩ := hv
    simp only [MState.step, MState.set, Bool.false_eq_true, if_false, reduceCtorEq] at h
    split at h
    · cases h
    · split at h
      · cases h
      · rename_i cs hcs
        simp only [Prod.mk.injEq, and_true] at h
        subst h
        have hfs : D.mlang.fsorts f = ss ++ [s] := by
          show (match D.rlang.funs f with | some (ss, c) => ss ++ [c] | none => []) = _
          have : D.rlang.funs f = some (ss, s) := hs
          rw [this]
        unfold checkAssignment at hcs
        split at hcs
        · cases hcs
        · rename_i hl
          rw [hfs] at hcs hl
          have hl : as.length = ss.length := by simpa [eq_comm] using hl
          have hcs := checkElements_ok (by simp [hl]) (ArgsOK.snoc ⟨c, rfl, hc⟩ hl ha) hcs
          have hne : cs ≠ [] := by
            rintro rfl
            have := hcs.length_eq
            simp at this
          have hlast : cs.dropLast ++ [cs.getLastD default] = cs := by
            rw [List.getLastD_eq_getLast?, List.getLast?_eq_getLast_of_ne_nil hne]
            exact List.dropLast_concat_getLast hne
          refine ⟨hm.1, fun g pt w hw => ?_⟩
          obtain ⟨d, h1, h2⟩ := (value_iff _ _ _ _ _).1 hw
          rcases dlookup_dinsert_cases h1 with ⟨e1, e2⟩ | h1
          · have e1 := fsig_inj.1 e1
            subst e1
            rw [← e2] at h2
            rcases dlookup_dinsert_cases h2 with ⟨e3, e4⟩ | h2
            · refine ⟨ss, s, dlookup_mem hs, ?_⟩
              rw [← e3, ← e4, hlast]
              exact hcs
            · refine hm.2 _ _ _ ((value_iff _ _ _ _ _).2 ?_)
              cases hd : dlookup m.fns (D.mlang.fsig f) with
              | none => rw [hd] at h2; simp [dlookup] at h2
              | some d' => exact ⟨d', rfl, by rw [hd] at h2; exact h2⟩
          · exact hm.2 _ _ _ ((value_iff _ _ _ _ _).2 ⟨d, h1, h2⟩)

theorem WellDeclared.readInitGo : ∀ {xs : List SX} {m m' : MState}, SXOKs xs → StateOK D m → readInitGo D.mlang D.rlang D.real m xs = .ok m' →
    StateOK D m' ∧ ∃ ops, m' = m.run D.mlang ops
  | [], m, m', _, hm, h => by simp only [Tarski.readInitGo] at h; cases h; exact ⟨hm, [], rfl⟩
  | x :: xs, m, m', hx, hm, h => by
    simp only [Tarski.readInitGo] at h
    split at h
    · cases h
    · exact WellDeclared.readInitGo hx.2 hm h
    · rename_i o ho
      split at h
      · cases h
      · rename_i m1 hs
        obtain ⟨h1, ops, h2⟩ := WellDeclared.readInitGo hx.2 (W.step (W.initOp hx.1 ho) hm hs) h
        refine ⟨h1, o :: ops, ?_⟩
        rw [h2, MState.run, MState.run, List.foldl_cons, hs]

omit W in
theorem stateOK_empty : StateOK D .empty := by
  refine ⟨fun q pt h => ?_, fun f pt v h => ?_⟩
  · simp [MState.holds, MState.empty, dlookup] at h
  · simp [MState.value, MState.empty, dlookup] at h

end

/-! ### Languages that grow, and bounds that are changed -/

/-- What stays true of a language while a problem is read. -/
structure PDecls.Later (D D' : PDecls) : Prop where
  parent : ∀ s q, D.parentOf s = some q → D'.parentOf s = some q
  length : D.allSorts.length ≤ D'.allSorts.length
  hasSort : ∀ s, D.hasSort s = true → D'.hasSort s = true
  interval : ∀ s, D.hasSort s = true → (D'.bounds s).isSome = (D.bounds s).isSome
  consts : ∀ c ∈ D.consts, c ∈ D'.consts
  preds : ∀ p ∈ D.preds, p ∈ D'.preds
  funs : ∀ f ∈ D.funs, f ∈ D'.funs
  fun' : ∀ f sig, dlookup D.funs f = some sig → dlookup D'.funs f = some sig

theorem hasSort_of_bounds {D : PDecls} {s : String} (h : (D.bounds s).isSome = true) : D.hasSort s = true := by
  simp only [PDecls.hasSort, Bool.or_eq_true]
  right
  cases hs : D.sort s with
  | none => simp [PDecls.bounds, hs] at h
  | some d => rfl

theorem WellDeclared.keys {D : PDecls} (W : WellDeclared D) : (D.preds.map Prod.fst).Nodup ∧ (D.funs.map Prod.fst).Nodup := by
  have h := W.names
  simp only [PDecls.vocabulary] at h
  have h1 := (List.nodup_append.1 (List.nodup_append.1 h).1).2.1
  have h2 := (List.nodup_append.1 h).2.1
  have e1 : D.preds.map (fun p => Name.str p.1) = (D.preds.map Prod.fst).map Name.str := by rw [List.map_map]; rfl
  have e2 : D.funs.map (fun p => Name.str p.1) = (D.funs.map Prod.fst).map Name.str := by rw [List.map_map]; rfl
  rw [e1] at h1
  rw [e2] at h2
  exact ⟨List.Nodup.of_map _ h1, List.Nodup.of_map _ h2⟩

theorem PDecls.Below.later {D D' : PDecls} (h : D.Below D') (W : WellDeclared D) (W' : WellDeclared D') : D.Later D' := by
  refine ⟨fun s q hq => ?_, h.length, fun s => h.hasSort, fun s hs => ?_, fun c hc => ?_, fun p hp => ?_, fun f hf => ?_, h.funs⟩
  · obtain ⟨d, hd, rfl⟩ := Option.map_eq_some_iff.1 hq
    exact Option.map_eq_some_iff.2 ⟨d, h.sort s d hd, rfl⟩
  · by_cases he : s = "object"
    · rw [he, bounds_object W, bounds_object W']
    · simp only [PDecls.hasSort, Bool.or_eq_true, beq_iff_eq, he, false_or] at hs
      obtain ⟨d, hd⟩ := Option.isSome_iff_exists.1 hs
      simp only [PDecls.bounds, hd, h.sort s d hd]
  · exact dlookup_mem (h.consts _ _ (dlookup_mem_nodup W.constKeys hc))
  · exact dlookup_mem (h.preds _ _ (dlookup_mem_nodup W.keys.1 hp))
  · exact dlookup_mem (h.funs _ _ (dlookup_mem_nodup W.keys.2 hf))

theorem PDecls.Later.refl (D : PDecls) : D.Later D :=
  ⟨fun _ _ h => h, le_refl _, fun _ h => h, fun _ _ => rfl, fun _ h => h, fun _ h => h, fun _ h => h, fun _ _ h => h⟩

theorem PDecls.Later.trans {D D' D'' : PDecls} (h : D.Later D') (h' : D'.Later D'') : D.Later D'' :=
  ⟨fun s q e => h'.parent s q (h.parent s q e), le_trans h.length h'.length, fun s e => h'.hasSort s (h.hasSort s e),
    fun s e => (h'.interval s (h.hasSort s e)).trans (h.interval s e), fun c e => h'.consts c (h.consts c e), fun c e => h'.preds c (h.preds c e),
    fun c e => h'.funs c (h.funs c e), fun f sig e => h'.fun' f sig (h.fun' f sig e)⟩

section
variable {D D' : PDecls} (H : D.Later D')
include H

theorem PDecls.Later.isSub {s t : String} (h : D.isSub s t = true) : D'.isSub s t = true :=
  Tarski.Below.subGo H.parent (Nat.succ_le_succ H.length) h

theorem PDecls.Later.sortOf {sc : Var → Prop} : ∀ {t : Term}, ScopedT D sc t → D'.rlang.sortOf t = D.rlang.sortOf t
  | .var _, _ => by simp [RLang.sortOf]
  | .const _ _, _ => by simp [RLang.sortOf]
  | .app f ts, h => by
    simp only [RLang.sortOf]
    by_cases hb : builtinBinary.contains f = true
    · rw [if_pos hb, if_pos hb]
    · rw [if_neg hb, if_neg hb]
      rcases h.1 with ⟨h1, -⟩ | ⟨ss, s, h1, -⟩
      · exact absurd (by simpa using h1) hb
      · have h2 := mem_keys_dlookup (List.mem_map.2 ⟨_, h1, rfl⟩)
        obtain ⟨sig, h3⟩ := Option.isSome_iff_exists.1 h2
        have h4 : D.rlang.funs f = some sig := h3
        have h5 : D'.rlang.funs f = some sig := H.fun' _ _ h3
        rw [h4, h5]

theorem PDecls.Later.ofSort {c : Const} {s : String} (h : ArgOf D c s) : ArgOf D' c s :=
  h.imp (fun h => ⟨H.consts _ h.1, H.isSub h.2⟩) fun h => ⟨h.1, h.2.1, by rw [H.interval _ (hasSort_of_bounds h.2.2)]; exact h.2.2⟩

theorem PDecls.Later.fits {sc : Var → Prop} : ∀ {ts : List Term} {ss : List String}, ScopedTs D sc ts →
    List.Forall₂ (fun t s => D.isSub (D.rlang.sortOf t) s = true) ts ss → List.Forall₂ (fun t s => D'.isSub (D'.rlang.sortOf t) s = true) ts ss
  | [], _, _, h => by cases h; exact .nil
  | t :: ts, _, hs, h => by
    cases h with
    | cons h1 h2 => exact .cons (by rw [H.sortOf hs.1]; exact H.isSub h1) (PDecls.Later.fits hs.2 h2)

mutual
theorem PDecls.Later.scopedT {sc : Var → Prop} : ∀ t, ScopedT D sc t → ScopedT D' sc t
  | .var _, h => h
  | .const _ _, h => h.imp (H.consts _) fun h => ⟨h.1, by rw [H.interval _ (hasSort_of_bounds h.2)]; exact h.2⟩
  | .app f ts, h => by
    refine ⟨?_, PDecls.Later.scopedTs ts h.2⟩
    rcases h.1 with ⟨h1, h2, h3⟩ | ⟨ss, s, h1, h2⟩
    · exact .inl ⟨h1, h2, fun t ht => by rw [H.sortOf ((scopedTs_iff ts).1 h.2 t ht)]; exact H.isSub (h3 t ht)⟩
    · exact .inr ⟨ss, s, H.funs _ h1, H.fits h.2 h2⟩
  | .ite _ _ _, h => h
theorem PDecls.Later.scopedTs {sc : Var → Prop} : ∀ ts, ScopedTs D sc ts → ScopedTs D' sc ts
  | [], _ => trivial
  | t :: ts, h => ⟨PDecls.Later.scopedT t h.1, PDecls.Later.scopedTs ts h.2⟩
end

theorem PDecls.Later.scopedAtom {sc : Var → Prop} {p : PSym} {ts : List Term} (h : ScopedAtom D sc p ts) : ScopedAtom D' sc p ts := by
  refine ⟨H.scopedTs ts h.1, ?_⟩
  cases p with
  | user p =>
    obtain ⟨ss, h1, h2⟩ := h.2
    exact ⟨ss, H.preds _ h1, H.fits h.1 h2⟩
  | cmp c => exact ⟨h.2.1, fun t ht => by rw [H.sortOf ((scopedTs_iff ts).1 h.1 t ht)]; exact H.isSub (h.2.2 t ht)⟩

mutual
theorem PDecls.Later.scopedF : ∀ (f : Formula) {sc : Var → Prop}, ScopedF D sc f → ScopedF D' sc f
  | .top, _, _ => trivial
  | .bot, _, h => h.elim
  | .atom _ _, _, h => H.scopedAtom h
  | .comp _ _ fs, _, h => ⟨h.1, h.2.1, PDecls.Later.scopedFs fs h.2.2⟩
  | .quant _ _ f, _, ⟨ws, e0, e, hs, h⟩ => ⟨ws, e0, e, fun v hv => H.hasSort _ (hs v hv), PDecls.Later.scopedF f h⟩
theorem PDecls.Later.scopedFs : ∀ (fs : List Formula) {sc : Var → Prop}, ScopedFs D sc fs → ScopedFs D' sc fs
  | [], _, _ => trivial
  | f :: fs, _, h => ⟨PDecls.Later.scopedF f h.1, PDecls.Later.scopedFs fs h.2⟩
end

mutual
theorem PDecls.Later.scopedE : ∀ (e : Effect) {sc : Var → Prop}, ScopedE D sc e → ScopedE D' sc e
  | .add c _ _, _, h => ⟨H.scopedF c h.1, H.scopedAtom h.2⟩
  | .del c _ _, _, h => ⟨H.scopedF c h.1, H.scopedAtom h.2⟩
  | .lit _ _, _, h => h
  | .assign c _ _ _, _, h => ⟨H.scopedF c h.1, H.scopedT _ h.2.1, H.scopedT _ h.2.2⟩
  | .univ c _ es, _, h => ⟨H.scopedF c h.1, fun v hv => H.hasSort _ (h.2.1 v hv), PDecls.Later.scopedEs es h.2.2⟩
theorem PDecls.Later.scopedEs : ∀ (es : List Effect) {sc : Var → Prop}, ScopedEs D sc es → ScopedEs D' sc es
  | [], _, _ => trivial
  | e :: es, _, h => ⟨PDecls.Later.scopedE e h.1, PDecls.Later.scopedEs es h.2⟩
end

theorem PDecls.Later.action {a : PAction} (h : ScopedAction D a) : ScopedAction D' a :=
  ⟨h.name, h.distinct, fun v hv => ⟨(h.params v hv).1, H.hasSort _ (h.params v hv).2⟩, H.scopedF _ h.pre, H.scopedEs _ h.effs, fun t e => H.scopedT _ (h.cost t e)⟩

theorem PDecls.Later.points : ∀ {pt : List Const} {ss : List String}, List.Forall₂ (ArgOf D) pt ss →
    List.Forall₂ (ArgOf D') pt ss
  | _, _, .nil => .nil
  | _, _, .cons h hs => .cons (H.ofSort h) (PDecls.Later.points hs)

end

/-- Two declarations of a sort that differ in the bounds only. -/
def SameSort (d d' : SDecl) : Prop := d'.name = d.name ∧ d'.parent = d.parent ∧ d'.bounds.isSome = d.bounds.isSome

theorem sameSort_refl (d : SDecl) : SameSort d d := ⟨rfl, rfl, rfl⟩

theorem sameSorts_refl : ∀ ds : List SDecl, List.Forall₂ SameSort ds ds
  | [] => .nil
  | d :: ds => .cons (sameSort_refl d) (sameSorts_refl ds)

theorem sameSorts_find {s : String} : ∀ {ds ds' : List SDecl}, List.Forall₂ SameSort ds ds' →
    (ds.find? (fun d => d.name == s) = none ∧ ds'.find? (fun d => d.name == s) = none) ∨
    ∃ d d', ds.find? (fun d => d.name == s) = some d ∧ ds'.find? (fun d => d.name == s) = some d' ∧ SameSort d d'
  | _, _, .nil => .inl ⟨rfl, rfl⟩
  | d :: ds, d' :: ds', .cons h hs => by
    simp only [List.find?_cons, h.1]
    cases hd : d.name == s
    · exact sameSorts_find hs
    · exact .inr ⟨d, d', rfl, rfl, h⟩

theorem sameSorts_names {ds ds' : List SDecl} (h : List.Forall₂ SameSort ds ds') : ds'.map SDecl.name = ds.map SDecl.name := by
  induction h with
  | nil => rfl
  | cons h _ ih => simp only [List.map_cons, h.1, ih]

theorem sameSorts_mem {ds ds' : List SDecl} (h : List.Forall₂ SameSort ds ds') : ∀ d' ∈ ds', ∃ d ∈ ds, SameSort d d' := by
  induction h with
  | nil => simp
  | cons h _ ih =>
    intro e he
    rcases List.mem_cons.1 he with rfl | he
    · exact ⟨_, by simp, h⟩
    · obtain ⟨d, hd, hs⟩ := ih e he
      exact ⟨d, by simp [hd], hs⟩

theorem setBounds_same {n : String} {b : Int × Int} : ∀ {ds : List SDecl},
    (∀ d, ds.find? (fun d => d.name == n) = some d → d.bounds.isSome = true) → List.Forall₂ SameSort ds (setBounds n b ds)
  | [], _ => .nil
  | d :: ds, h => by
    unfold setBounds
    split
    · rename_i hn
      exact .cons ⟨rfl, rfl, (h d (by simp [hn])).symm⟩ (sameSorts_refl ds)
    · rename_i hn
      refine .cons (sameSort_refl d) (setBounds_same fun e he => h e ?_)
      rw [List.find?_cons]
      have : (d.name == n) = false := by simpa using hn
      rw [this]
      exact he

/-- The declared sorts are replaced by some that differ in the bounds only. -/
theorem WellDeclared.rebound {D : PDecls} (W : WellDeclared D) {ds : List SDecl} (h : List.Forall₂ SameSort D.sorts ds) :
    WellDeclared { D with sorts := ds } ∧ D.Later { D with sorts := ds } := by
  have ha : List.Forall₂ SameSort D.allSorts ({ D with sorts := ds } : PDecls).allSorts := by
    show List.Forall₂ SameSort (_ ++ D.sorts) (_ ++ ds)
    exact List.rel_append (sameSorts_refl _) h
  have hn := sameSorts_names ha
  have hh : ∀ s, ({ D with sorts := ds } : PDecls).hasSort s = true ↔ D.hasSort s = true := fun s => by
    rw [PDecls.hasSort_iff, PDecls.hasSort_iff, hn]
  have hi : ∀ s, (({ D with sorts := ds } : PDecls).bounds s).isSome = (D.bounds s).isSome := fun s => by
    simp only [PDecls.bounds, PDecls.sort]
    rcases sameSorts_find (s := s) ha with ⟨h1, h2⟩ | ⟨d, d', h1, h2, h3⟩
    · rw [h1, h2]
    · rw [h1, h2]; exact h3.2.2
  have hp : ∀ s, ({ D with sorts := ds } : PDecls).parentOf s = D.parentOf s := fun s => by
    simp only [PDecls.parentOf, PDecls.sort]
    rcases sameSorts_find (s := s) ha with ⟨h1, h2⟩ | ⟨d, d', h1, h2, h3⟩
    · rw [h1, h2]
    · rw [h1, h2]
      simp only [Option.map_some, h3.2.1]
  refine ⟨⟨?_, W.sorts.same (ha.imp fun _ _ h => ⟨h.1, h.2.1⟩), fun d hd => ?_, fun d hd => ?_, fun c hc => ?_, fun p hpm => ?_, fun f hf => ?_⟩,
    fun s q e => by rw [hp]; exact e, le_of_eq ha.length_eq, fun s e => (hh s).2 e, fun s _ => hi s, fun _ h => h, fun _ h => h, fun _ h => h,
    fun _ _ h => h⟩
  · have := W.names
    simp only [PDecls.vocabulary] at this ⊢
    rw [hn]
    exact this
  · obtain ⟨e, he, h1⟩ := sameSorts_mem h d hd
    rw [h1.1]
    exact W.sortNames e he
  · obtain ⟨e, he, h1⟩ := sameSorts_mem h d hd
    rw [h1.2.1, h1.2.2]
    exact W.intervals e he
  · have := W.consts c hc
    refine ⟨this.1, (hh _).2 this.2.1, ?_⟩
    have h1 := hi c.2
    rw [this.2.2] at h1
    simpa using h1
  · exact ⟨(W.preds p hpm).1, fun s hs => (hh s).2 ((W.preds p hpm).2 s hs)⟩
  · exact ⟨(W.funs f hf).1, fun s hs => (hh s).2 ((W.funs f hf).2.1 s hs), (hh _).2 (W.funs f hf).2.2⟩

theorem LowerName.not_builtin {n : String} (h : LowerName n) : n ∉ builtinSorts.map SDecl.name := by
  intro hm
  obtain ⟨c, cs, h1, h2, -⟩ := h
  simp only [builtinSorts, List.map_cons, List.map_nil, List.mem_cons, List.not_mem_nil, or_false] at hm
  rcases hm with rfl | rfl | rfl
  · cases h1; exact absurd h2 (by decide)
  · cases h1; exact absurd h2 (by decide)
  · cases h1; exact absurd h2 (by decide)

theorem sort_lower {D : PDecls} {n : String} (h : LowerName n) : D.sort n = D.sorts.find? (fun d => d.name == n) := by
  unfold PDecls.sort PDecls.allSorts
  split
  · rw [List.find?_append]
    have : builtinSorts.find? (fun d => d.name == n) = none := by
      rw [List.find?_eq_none]
      intro x hx
      simp only [beq_iff_eq]
      rintro rfl
      exact h.not_builtin (List.mem_map.2 ⟨x, hx, rfl⟩)
    rw [this]; rfl
  · rfl

theorem readBound_ok {D D' : PDecls} {x : SX} (hx : SXOK x) (h : readBound D x = .ok D') :
    ∃ n b, D' = { D with sorts := setBounds n b D.sorts } ∧ List.Forall₂ SameSort D.sorts (setBounds n b D.sorts) ∧
      ∃ d ∈ D.sorts, d.bounds.isSome = true := by
  unfold readBound at h
  split at h
  · rename_i n ty a b
    split at h
    · split at h
      · split at h
        · cases h
        · rename_i bb hb
          split at h
          · cases h
          · split at h <;> cases h
            have hn : LowerName (lowerS n) := NameTok.lower hx.1.1
            have key : ∀ d, D.sorts.find? (fun d => d.name == lowerS n) = some d → d.bounds.isSome = true := by
              intro d hd
              rw [← sort_lower hn] at hd
              simp only [PDecls.bounds, hd] at hb
              rw [show d.bounds = some bb from hb]; rfl
            refine ⟨_, _, rfl, setBounds_same key, ?_⟩
            cases hf : D.sorts.find? (fun d => d.name == lowerS n) with
            | none =>
              rw [← sort_lower hn] at hf
              simp [PDecls.bounds, hf] at hb
            | some d => exact ⟨d, List.mem_of_find?_eq_some hf, key d hf⟩
      · cases h
    · cases h
  · cases h

theorem sameSorts_mem_left {ds ds' : List SDecl} (h : List.Forall₂ SameSort ds ds') : ∀ d ∈ ds, ∃ d' ∈ ds', SameSort d d' := by
  induction h with
  | nil => exact fun d hd => by cases hd
  | cons h _ ih =>
    intro d hd
    rcases List.mem_cons.1 hd with rfl | hd
    · exact ⟨_, by simp, h⟩
    · obtain ⟨e, he, h3⟩ := ih d hd
      exact ⟨e, by simp [he], h3⟩

/-- Reading bounds changes bounds only; it needs an interval sort. -/
theorem WellDeclared.readBounds : ∀ {xs : List SX} {D D' : PDecls}, WellDeclared D → SXOKs xs → readBounds D xs = .ok D' →
    (WellDeclared D' ∧ D.Later D') ∧ (∀ p pt, D'.mlang.psig p = D.mlang.psig p ∧ D'.mlang.fsig pt = D.mlang.fsig pt) ∧
      (xs ≠ [] → ∃ d ∈ D'.sorts, d.bounds.isSome = true)
  | [], D, D', W, _, h => by cases h; exact ⟨⟨W, .refl _⟩, fun _ _ => ⟨rfl, rfl⟩, fun h => absurd rfl h⟩
  | x :: xs, D, D', W, hx, h => by
    simp only [Tarski.readBounds] at h
    split at h
    · cases h
    · rename_i D1 h1
      obtain ⟨n, b, rfl, h2, d, hd, hb⟩ := readBound_ok hx.1 h1
      have a := W.rebound h2
      obtain ⟨b1, b2, b3⟩ := a.1.readBounds hx.2 h
      refine ⟨⟨b1.1, a.2.trans b1.2⟩, fun p f => b2 p f, fun _ => ?_⟩
      cases xs with
      | nil =>
        simp only [Tarski.readBounds, Except.ok.injEq] at h
        subst h
        obtain ⟨e, he, h3⟩ : ∃ e ∈ setBounds n b D.sorts, SameSort d e := by
          exact sameSorts_mem_left h2 d hd
        exact ⟨e, he, by rw [h3.2.2]; exact hb⟩
      | cons y ys => exact b3 (by simp)

theorem WellDeclared.readMetric {D : PDecls} (W : WellDeclared D) {xs : List SX} {b : Bool} {t : Term} (h : readMetric D xs = .ok (b, t)) :
    ScopedT D (fun _ => False) t := by
  unfold Tarski.readMetric at h
  split at h
  · split at h
    · cases h
    · split at h
      · cases h
      · cases h
        exact W.readFunT ‹_› t rfl
      · cases h
  · cases h

theorem WellDeclared.readMetas : ∀ {xs : List SX} {D D' : PDecls} {m m' : Option (Bool × Term)}, WellDeclared D → SXOKs xs →
    (∀ b t, m = some (b, t) → ScopedT D (fun _ => False) t) → readMetas D m xs = .ok (D', m') →
    (WellDeclared D' ∧ D.Later D') ∧ (∀ p pt, D'.mlang.psig p = D.mlang.psig p ∧ D'.mlang.fsig pt = D.mlang.fsig pt) ∧
      (D' = D ∨ ∃ d ∈ D'.sorts, d.bounds.isSome = true) ∧ ∀ b t, m' = some (b, t) → ScopedT D' (fun _ => False) t
  | [], D, D', m, m', W, _, hm, h => by
    simp only [Tarski.readMetas] at h; cases h
    exact ⟨⟨W, .refl _⟩, fun _ _ => ⟨rfl, rfl⟩, .inl rfl, hm⟩
  | x :: xs, D, D', m, m', W, hx, hm, h => by
    simp only [Tarski.readMetas] at h
    split at h
    · rename_i bs hbs
      split at h
      · cases h
      · rename_i hne
        split at h
        · cases h
        · rename_i D1 h1
          obtain ⟨a1, a2, a3⟩ := W.readBounds (secOf_ok hx.1 hbs) h1
          obtain ⟨b1, b2, b3, b4⟩ := a1.1.readMetas hx.2 (fun b t e => a1.2.scopedT _ (hm b t e)) h
          refine ⟨⟨b1.1, a1.2.trans b1.2⟩, fun p f => ⟨(b2 p f).1.trans (a2 p f).1, (b2 p f).2.trans (a2 p f).2⟩, ?_, b4⟩
          rcases b3 with rfl | b3
          · exact .inr (a3 hne)
          · exact .inr b3
    · split at h
      · cases h
      · split at h
        · cases h
        · rename_i mm hmm
          exact W.readMetas hx.2 (fun b t e => by cases e; exact W.readMetric hmm) h

/-! ### The theorems -/

/-- What reading an instance gives. -/
theorem readInstance_ok {P : PDomain} {x : SX} {p : PProblem} (W : WellDeclared P.lang) (hx : SXOK x) (hn : (P.actions.map PAction.name).Nodup)
    (ha : ∀ a ∈ P.actions, ScopedAction P.lang a) (hd : AName P.name) (h : readInstance P x = .ok p) :
    WellFormedProblem p ∧ ((∃ d ∈ p.lang.sorts, d.bounds.isSome = true) ∨ ∃ ops, p.init = MState.empty.run p.lang.mlang ops) := by
  unfold readInstance at h
  split at h
  · split at h
    · cases h
    · rename_i h1
      obtain ⟨⟨w1, b1⟩, o1⟩ := W.readSec hx.2.2.2 (fun h _ hd => h.readRequire hd) h1
      split at h
      · cases h
      · rename_i h2
        obtain ⟨⟨w2, b2⟩, o2⟩ := w1.readSec o1 (fun h hx hd => h.readObjects hx hd) h2
        split at h
        · rename_i xi xg metas
          split at h
          · rename_i is g hi hg
            split at h
            · cases h
            · rename_i m hm
              split at h
              · cases h
              · rename_i f hf
                split at h
                · cases h
                · rename_i D3 mt hmt
                  cases h
                  obtain ⟨i1, ops, i2⟩ := w2.readInitGo (secOf_ok o2.1 hi) stateOK_empty hm
                  obtain ⟨r1, r2, r3, r4⟩ := w2.readMetas o2.2.2 (by intro b t e; cases e) hmt
                  have l1 := (b1.trans b2).later W w2
                  have l2 := l1.trans r1.2
                  refine ⟨⟨⟨hx.2.1.2.1.2, hx.2.1.2.1.1⟩, hd, r1.1, ?_, ?_, hn, fun a h => l2.action (ha a h), ⟨f, rfl, r1.2.scopedF _ (ScopedF.scope _ (fun v hv => hv) (w2.readF g hf))⟩,
                    r4, rfl⟩, ?_⟩
                  · intro q pt hq
                    rw [holds_iff, (r2 q q).1, ← holds_iff] at hq
                    obtain ⟨ss, h1, h2⟩ := i1.1 q pt hq
                    exact ⟨ss, r1.2.preds _ h1, r1.2.points h2⟩
                  · intro f pt v hv
                    rw [value_iff, (r2 f f).2, ← value_iff] at hv
                    obtain ⟨ss, s, h1, h2⟩ := i1.2 f pt v hv
                    exact ⟨ss, s, r1.2.funs _ h1, r1.2.points h2⟩
                  · rcases r3 with rfl | r3
                    · exact .inr ⟨ops, i2⟩
                    · exact .inl r3
          · cases h
        · cases h
  · cases h

theorem readDomain_name {D0 : PDecls} {x : SX} {P : PDomain} (hx : SXOK x) (h : readDomain D0 x = .ok P) : AName P.name := by
  unfold readDomain at h
  split at h
  · repeat' split at h
    all_goals cases h
    exact ⟨hx.2.1.2.1.2, hx.2.1.2.1.1⟩
  · cases h

theorem readFiles_ok {ci : Bool} {D0 : PDecls} {dom inst : Text} {p : PProblem} (W : WellDeclared D0) (h : readProblemFiles ci D0 dom inst = .ok p) :
    WellFormedProblem p ∧ ((∃ d ∈ p.lang.sorts, d.bounds.isSome = true) ∨ ∃ ops, p.init = MState.empty.run p.lang.mlang ops) := by
  unfold readProblemFiles at h
  split at h
  · cases h
  · rename_i P hP
    split at h
    · cases h
    · rename_i y hy
      unfold parseDomain at hP
      split at hP
      · cases hP
      · rename_i x hx
        obtain ⟨w, -, xs, as, o, s1, s2⟩ := readDomain_decls W (sxTree_ok hx) hP
        have k := w.readStructures o s1 (by simp) (by simp)
        have k' := w.uniformCosts s2 k.1 k.2
        exact readInstance_ok w (sxTree_ok hy) k'.1 k'.2 (readDomain_name (sxTree_ok hx) hP) h

/-- A language without declarations is well formed, whatever the theories. -/
theorem wellDeclared_bare {D : PDecls} (h1 : D.sorts = []) (h2 : D.consts = []) (h3 : D.preds = []) (h4 : D.funs = []) : WellDeclared D := by
  refine ⟨?_, ?_, by simp [h1], by simp [h1], by simp [h2], by simp [h3], by simp [h4]⟩
  · simp only [PDecls.vocabulary, PDecls.allSorts, h1, h2, h3, h4]
    split <;> decide
  · simp only [PDecls.allSorts, h1]
    split
    · exact ⟨by decide, by decide, by decide, by decide, by decide, by decide, trivial⟩
    · trivial

/-- C121: every problem that the reader of PDDL returns is well formed: nothing is declared twice or below a sort that is not there, the
initial state, the actions, the goal and the metric are about declared symbols with arguments of their sorts, and no variable is free. -/
theorem C121_wellformed (ci : Bool) (D0 : PDecls) (h1 : D0.sorts = []) (h2 : D0.consts = []) (h3 : D0.preds = []) (h4 : D0.funs = [])
    (dom inst : Text) (p : PProblem) (h : readProblemFiles ci D0 dom inst = .ok p) : WellFormedProblem p :=
  (readFiles_ok (wellDeclared_bare h1 h2 h3 h4) h).1

end Tarski

import Verif.LangQueries
import Verif.Props.Language
import Mathlib.Data.List.Nodup
/-! C112: what a language answers about itself, after every history of calls. -/
namespace Tarski

/-! ### Helper lemmas -/

/-- The dictionaries of a language agree except possibly at one key. -/
structure SameExcept (k : String) (L L' : Lang) : Prop where
  sorts : ∀ x, x ≠ k → L'.sorts x = L.sorts x
  preds : ∀ x, x ≠ k → L'.preds x = L.preds x
  funs : ∀ x, x ≠ k → L'.funs x = L.funs x
  consts : ∀ x, x ≠ k → L'.consts x = L.consts x
  parent : ∀ x, x ≠ k → L'.parent x = L.parent x

theorem SameExcept.rfl' (k : String) (L : Lang) : SameExcept k L L :=
  ⟨fun _ _ => rfl, fun _ _ => rfl, fun _ _ => rfl, fun _ _ => rfl, fun _ _ => rfl⟩

theorem SameExcept.trans {k : String} {L L' L'' : Lang} (h : SameExcept k L L') (h' : SameExcept k L' L'') :
    SameExcept k L L'' :=
  ⟨fun x hx => (h'.sorts x hx).trans (h.sorts x hx), fun x hx => (h'.preds x hx).trans (h.preds x hx),
   fun x hx => (h'.funs x hx).trans (h.funs x hx), fun x hx => (h'.consts x hx).trans (h.consts x hx),
   fun x hx => (h'.parent x hx).trans (h.parent x hx)⟩

theorem sameExcept_setParent {n L s p ow L' e} (h : setParent n L s p ow = some (L', e)) : SameExcept s L L' := by
  unfold setParent at h
  split at h
  · cases h; exact .rfl' _ _
  · simp only at h
    split at h
    · cases h
    · cases h; exact ⟨fun _ _ => rfl, fun _ _ => rfl, fun _ _ => rfl, fun _ _ => rfl, fun x hx => upd_ne _ _ hx⟩
    · cases h; exact ⟨fun _ _ => rfl, fun _ _ => rfl, fun _ _ => rfl, fun _ _ => rfl, fun x hx => upd_ne _ _ hx⟩

theorem sameExcept_attach {n L name i p L' e} (h : attachSort n L name i p = some (L', e)) : SameExcept name L L' := by
  unfold attachSort at h
  have h1 : SameExcept name L { L with sorts := upd L.sorts name (some i), index := upd L.index name (some (.sort name)) } :=
    ⟨fun x hx => upd_ne _ _ hx, fun _ _ => rfl, fun _ _ => rfl, fun _ _ => rfl, fun _ _ => rfl⟩
  split at h
  · cases h; exact .rfl' _ _
  · simp only at h
    split at h
    · cases h; exact h1
    · exact h1.trans (sameExcept_setParent h)

theorem sameExcept_step {n L op L' e} (h : lstep n L op = some (L', e)) : SameExcept op.key L L' := by
  cases op with
  | sort name p =>
    simp only [lstep, declSort] at h
    split at h
    · cases h; exact .rfl' _ _
    · exact sameExcept_attach h
  | attachBuiltin name p => simp only [lstep] at h; exact sameExcept_attach h
  | attachForeign name => simp only [lstep] at h; exact sameExcept_attach h
  | interval name p lb ub =>
    simp only [lstep, declInterval] at h
    split at h
    · cases h; exact .rfl' _ _
    split at h
    · cases h; exact .rfl' _ _
    split at h
    · cases h; exact .rfl' _ _
    split at h
    · cases h; exact .rfl' _ _
    split at h
    · cases h; exact .rfl' _ _
    · refine SameExcept.trans ?_ (sameExcept_setParent h)
      exact ⟨fun x hx => upd_ne _ _ hx, fun _ _ => rfl, fun _ _ => rfl, fun _ _ => rfl, fun _ _ => rfl⟩
  | predicate name a =>
    simp only [lstep, declPredicate] at h
    split at h
    · cases h; exact .rfl' _ _
    split at h
    · cases h; exact .rfl' _ _
    · cases h; exact ⟨fun _ _ => rfl, fun x hx => upd_ne _ _ hx, fun _ _ => rfl, fun _ _ => rfl, fun _ _ => rfl⟩
  | function name a =>
    simp only [lstep, declFunction] at h
    split at h
    · cases h; exact .rfl' _ _
    split at h
    · cases h; exact .rfl' _ _
    split at h
    · cases h; exact .rfl' _ _
    · cases h; exact ⟨fun _ _ => rfl, fun _ _ => rfl, fun x hx => upd_ne _ _ hx, fun _ _ => rfl, fun _ _ => rfl⟩
  | constant name s c =>
    simp only [lstep, declConstant] at h
    split at h
    · cases h; exact .rfl' _ _
    split at h
    · cases h; exact .rfl' _ _
    split at h
    · cases h; exact .rfl' _ _
    split at h
    · split at h
      · cases h; exact ⟨fun _ _ => rfl, fun _ _ => rfl, fun _ _ => rfl, fun x hx => upd_ne _ _ hx, fun _ _ => rfl⟩
      · cases h; exact .rfl' _ _
    · split at h
      · cases h
      · cases h; exact ⟨fun _ _ => rfl, fun _ _ => rfl, fun _ _ => rfl, fun x hx => upd_ne _ _ hx, fun _ _ => rfl⟩
  | removeSymbol name =>
    simp only [lstep, removeSymbol, Option.some.injEq] at h
    split at h
    · cases h; exact ⟨fun _ _ => rfl, fun x hx => upd_ne _ _ hx, fun _ _ => rfl, fun _ _ => rfl, fun _ _ => rfl⟩
    split at h
    · cases h; exact ⟨fun _ _ => rfl, fun _ _ => rfl, fun x hx => upd_ne _ _ hx, fun _ _ => rfl, fun _ _ => rfl⟩
    · cases h; exact .rfl' _ _
  | setParent s p => exact sameExcept_setParent h
  | isSubtype t s =>
    simp only [lstep, isSubtype] at h
    split at h
    · cases h; exact .rfl' _ _
    split at h
    · cases h; exact .rfl' _ _
    split at h
    · cases h; exact .rfl' _ _
    split at h
    · cases h
    · cases h; exact ⟨fun _ _ => rfl, fun _ _ => rfl, fun _ _ => rfl, fun _ _ => rfl, fun _ _ => rfl⟩
    · cases h; exact .rfl' _ _

/-- The key list of a dictionary lists its keys once each. -/
def KeyList (keys : List String) (has : String → Bool) : Prop := keys.Nodup ∧ ∀ x, x ∈ keys ↔ has x = true

theorem keyList_after {keys : List String} {has has' : String → Bool} {k : String} (h : KeyList keys has)
    (hs : ∀ x, x ≠ k → has' x = has x) : KeyList (keysAfter keys has' k) has' := by
  unfold keysAfter
  have hmem : ∀ x, x ≠ k → (x ∈ keys.filter has' ↔ has' x = true) := by
    intro x hx
    simp only [List.mem_filter, h.2 x, ← hs x hx, and_self]
  split
  · rename_i hc
    simp only [Bool.and_eq_true, Bool.not_eq_true', List.contains_eq_mem, decide_eq_false_iff_not] at hc
    refine ⟨?_, fun x => ?_⟩
    · rw [List.nodup_append]
      refine ⟨h.1.filter _, by simp, ?_⟩
      intro a ha b hb
      simp only [List.mem_singleton] at hb
      rintro rfl
      rw [hb] at ha
      exact hc.2 (List.mem_filter.mp ha).1
    · by_cases hx : x = k
      · subst hx; simp [hc.1]
      · simp only [List.mem_append, List.mem_singleton, hx, or_false, hmem x hx]
  · rename_i hc
    refine ⟨h.1.filter _, fun x => ?_⟩
    by_cases hx : x = k
    · subst hx
      simp only [Bool.and_eq_true, Bool.not_eq_true', List.contains_eq_mem, decide_eq_false_iff_not, not_and,
        not_not] at hc
      simp only [List.mem_filter]
      exact ⟨fun h => h.2, fun h => ⟨hc h, h⟩⟩
    · exact hmem x hx

/-- A dictionary that did not change keeps its key list. -/
theorem keysAfter_same {keys : List String} {has has' : String → Bool} {k : String} (h : KeyList keys has)
    (hs : ∀ x, has' x = has x) : keysAfter keys has' k = keys := by
  have he : has' = has := funext hs
  subst he
  unfold keysAfter
  rw [if_neg]
  · rw [List.filter_eq_self]; intro a ha; exact (h.2 a).mp ha
  · simp only [Bool.and_eq_true, Bool.not_eq_true', List.contains_eq_mem, decide_eq_false_iff_not, not_and, not_not]
    exact fun hk => (h.2 k).mpr hk

/-- A new key goes to the end. -/
theorem keysAfter_new {keys : List String} {has has' : String → Bool} {k : String} (h : KeyList keys has)
    (hk : has k = false) (hk' : has' k = true) (hs : ∀ x, x ≠ k → has' x = has x) : keysAfter keys has' k = keys ++ [k] := by
  have hn : k ∉ keys := by rw [h.2, hk]; simp
  unfold keysAfter
  rw [if_pos (by simp [hk', hn])]
  congr 1
  rw [List.filter_eq_self]
  intro a ha
  have : a ≠ k := by rintro rfl; exact hn ha
  rw [hs a this]; exact (h.2 a).mp ha

/-- A deleted key goes away. -/
theorem keysAfter_del {keys : List String} {has has' : String → Bool} {k : String} (h : KeyList keys has)
    (hk' : has' k = false) (hs : ∀ x, x ≠ k → has' x = has x) : keysAfter keys has' k = keys.filter (fun x => x != k) := by
  unfold keysAfter
  rw [if_neg (by simp [hk'])]
  apply List.filter_congr
  intro a ha
  by_cases hx : a = k
  · subst hx; simp [hk']
  · rw [hs a hx, (h.2 a).mp ha]; simp [hx]

/-- Invariant of all histories. -/
structure OInv (O : OLang) : Prop where
  names : NameInv O.lang
  sorts : KeyList O.sortKeys (fun x => (O.lang.sorts x).isSome)
  preds : KeyList O.predKeys (fun x => (O.lang.preds x).isSome)
  funs : KeyList O.funKeys (fun x => (O.lang.funs x).isSome)
  consts : KeyList O.constKeys (fun x => (O.lang.consts x).isSome)
  par : KeyList O.parKeys (fun x => (O.lang.parent x).isSome)
  marked : ∀ x, x ∈ O.marked → (O.lang.preds x).isSome = true ∨ (O.lang.funs x).isSome = true

theorem oinv_init : OInv OLang.init := by
  refine ⟨nameInv_init, ?_, ?_, ?_, ?_, ?_, ?_⟩
  · refine ⟨by simp [OLang.init], fun x => ?_⟩
    simp only [OLang.init, Lang.init, upd, List.mem_singleton]; split <;> simp [*]
  · exact ⟨by simp [OLang.init], fun x => by simp [OLang.init, Lang.init]⟩
  · exact ⟨by simp [OLang.init], fun x => by simp [OLang.init, Lang.init]⟩
  · exact ⟨by simp [OLang.init], fun x => by simp [OLang.init, Lang.init]⟩
  · refine ⟨by simp [OLang.init], fun x => ?_⟩
    simp only [OLang.init, Lang.init, upd, List.mem_singleton]; split <;> simp [*]
  · simp [OLang.init]

/-- A successful declaration of a symbol binds it. -/
theorem symbol_declared {n L op L'} (h : lstep n L op = some (L', none))
    (ho : (∃ n a, op = .predicate n a) ∨ ∃ n a, op = .function n a) :
    (L'.preds op.key).isSome = true ∨ (L'.funs op.key).isSome = true := by
  rcases ho with ⟨m, a, rfl⟩ | ⟨m, a, rfl⟩
  · left
    simp only [lstep, declPredicate] at h
    split at h
    · cases h
    split at h
    · cases h
    · cases h; simp [LOp.key, upd]
  · right
    simp only [lstep, declFunction] at h
    split at h
    · cases h
    split at h
    · cases h
    split at h
    · cases h
    · cases h; simp [LOp.key, upd]

theorem oinv_run {n O op mark O' e} (hi : OInv O)
    (hm : mark = true → (∃ n a, op = .predicate n a) ∨ ∃ n a, op = .function n a)
    (h : O.run n op mark = some (O', e)) : OInv O' := by
  unfold OLang.run at h
  split at h
  · cases h
  · rename_i L' e' hs
    cases h
    have hf := sameExcept_step hs
    refine ⟨nameInv_step hi.names hs, ?_, ?_, ?_, ?_, ?_, ?_⟩
    · exact keyList_after (has' := fun x => (L'.sorts x).isSome) hi.sorts (fun x hx => by simp only [hf.sorts x hx])
    · exact keyList_after (has' := fun x => (L'.preds x).isSome) hi.preds (fun x hx => by simp only [hf.preds x hx])
    · exact keyList_after (has' := fun x => (L'.funs x).isSome) hi.funs (fun x hx => by simp only [hf.funs x hx])
    · exact keyList_after (has' := fun x => (L'.consts x).isSome) hi.consts (fun x hx => by simp only [hf.consts x hx])
    · exact keyList_after (has' := fun x => (L'.parent x).isSome) hi.par (fun x hx => by simp only [hf.parent x hx])
    · intro x hx
      have hk : ∀ x, x ∈ O.marked.filter (fun x => (L'.preds x).isSome || (L'.funs x).isSome) →
          (L'.preds x).isSome = true ∨ (L'.funs x).isSome = true := by
        intro x hx
        simpa using (List.mem_filter.mp hx).2
      simp only at hx
      split at hx
      · rename_i hc
        simp only [Bool.and_eq_true, Option.isNone_iff_eq_none] at hc
        rcases List.mem_cons.mp hx with rfl | hx
        · rw [hc.2] at hs
          exact symbol_declared hs (hm hc.1)
        · exact hk x hx
      · exact hk x hx

theorem oinv_reach {ok O} (h : OReach ok O) : OInv O := by
  induction h with
  | init => exact oinv_init
  | step O op n O' e _ _ _ _ hb hs ih =>
    cases op with
    | call op => exact oinv_run ih (by simp) hs
    | builtinSymbol op => exact oinv_run ih (fun _ => hb op rfl) hs
    | setBounds s lb ub =>
      simp only [ostep] at hs
      split at hs
      · cases hs; exact ⟨ih.names, ih.sorts, ih.preds, ih.funs, ih.consts, ih.par, ih.marked⟩
      · cases hs; exact ih

/-- The underlying language of a reachable one is reachable in the sense of C19 - C21. -/
theorem oreach_lang {ok : LOp → Prop} {sb O} (h : OReach (OOp.only ok sb) O) : LReach ok O.lang := by
  induction h with
  | init => exact .init
  | step O op n O' e _ hok h1 h2 hb hs ih =>
    have run : ∀ op mark, ok op → (∀ s p, op = .setParent s p → (O.lang.sorts s).isSome ∧ (O.lang.sorts p).isSome) →
        (∀ s p, op = .attachBuiltin s p → (O.lang.sorts p).isSome) → O.run n op mark = some (O', e) → LReach ok O'.lang := by
      intro op mark ho a b hr
      unfold OLang.run at hr
      split at hr
      · cases hr
      · rename_i L' e' hl
        cases hr
        exact .step _ _ _ _ _ ih ho a b hl
    cases op with
    | call op => exact run op false hok (fun s p e => h1 s p (by rw [e])) (fun s p e => h2 s p (by rw [e])) hs
    | builtinSymbol op =>
      rcases hb op rfl with ⟨m, a, rfl⟩ | ⟨m, a, rfl⟩
      · exact run _ true hok (by intro s p e; cases e) (by intro s p e; cases e) hs
      · exact run _ true hok (by intro s p e; cases e) (by intro s p e; cases e) hs
    | setBounds s lb ub =>
      simp only [ostep] at hs
      split at hs
      · cases hs; exact ih
      · cases hs; exact ih

/-! ### The listings -/

/-- C112: after every history of calls, the listings contain every declared sort, predicate, function and constant,
exactly once, with its signature, and nothing else. -/
theorem C112_listings {ok O} (h : OReach ok O) :
    (O.sorts.Nodup ∧ ∀ s, s ∈ O.sorts ↔ Declared O.lang s (.sort s)) ∧
    ((O.predicates.map (·.1)).Nodup ∧ ∀ p a, (p, a) ∈ O.predicates ↔ Declared O.lang p (.pred p a)) ∧
    ((O.functions.map (·.1)).Nodup ∧ ∀ f a, (f, a) ∈ O.functions ↔ Declared O.lang f (.func f a)) ∧
    ((O.constants.map (·.1)).Nodup ∧ ∀ c s, (c, s) ∈ O.constants ↔ Declared O.lang c (.const c s)) := by
  have hi := oinv_reach h
  have key : ∀ {β : Type} (keys : List String) (d : String → Option β) (z : β), KeyList keys (fun x => (d x).isSome) →
      ∀ n b, (n, b) ∈ keys.map (fun x => (x, (d x).getD z)) ↔ d n = some b := by
    intro β keys d z hk n b
    rw [List.mem_map]
    constructor
    · rintro ⟨x, hx, he⟩
      cases he
      have := (hk.2 n).mp hx
      simp only at this
      cases hd : d n with
      | none => rw [hd] at this; cases this
      | some b => rfl
    · intro hd
      exact ⟨n, (hk.2 n).mpr (by simp [hd]), by simp [hd]⟩
  refine ⟨⟨hi.sorts.1, fun s => ?_⟩, ⟨?_, fun p a => ?_⟩, ⟨?_, fun p a => ?_⟩, ⟨?_, fun p a => ?_⟩⟩
  · unfold OLang.sorts; rw [hi.sorts.2 s]
    exact ⟨fun h => .sort _ h, fun h => by cases h; assumption⟩
  · simpa [OLang.predicates, List.map_map, Function.comp_def] using hi.preds.1
  · unfold OLang.predicates
    rw [key _ _ _ hi.preds]
    exact ⟨fun h => .pred _ _ h, fun h => by cases h; assumption⟩
  · simpa [OLang.functions, List.map_map, Function.comp_def] using hi.funs.1
  · unfold OLang.functions
    rw [key _ _ _ hi.funs]
    exact ⟨fun h => .func _ _ h, fun h => by cases h; assumption⟩
  · simpa [OLang.constants, List.map_map, Function.comp_def] using hi.consts.1
  · unfold OLang.constants
    rw [key _ _ _ hi.consts]
    exact ⟨fun h => .const _ _ h, fun h => by cases h; assumption⟩

/-- C112: the `has_...` queries say whether something of that kind has been declared with the name. -/
theorem C112_has (O : OLang) (n : String) :
    (O.hasSort n = true ↔ Declared O.lang n (.sort n)) ∧ (O.hasPredicate n = true ↔ ∃ a, Declared O.lang n (.pred n a)) ∧
    (O.hasFunction n = true ↔ ∃ a, Declared O.lang n (.func n a)) ∧
    (O.hasConstant n = true ↔ ∃ s, Declared O.lang n (.const n s)) := by
  unfold OLang.hasSort OLang.hasPredicate OLang.hasFunction OLang.hasConstant
  refine ⟨⟨fun h => .sort _ h, fun h => by cases h; assumption⟩, ?_, ?_, ?_⟩
  · rw [Option.isSome_iff_exists]
    exact ⟨fun ⟨a, h⟩ => ⟨a, .pred _ _ h⟩, fun ⟨a, h⟩ => by cases h; exact ⟨a, by assumption⟩⟩
  · rw [Option.isSome_iff_exists]
    exact ⟨fun ⟨a, h⟩ => ⟨a, .func _ _ h⟩, fun ⟨a, h⟩ => by cases h; exact ⟨a, by assumption⟩⟩
  · rw [Option.isSome_iff_exists]
    exact ⟨fun ⟨a, h⟩ => ⟨a, .const _ _ h⟩, fun ⟨a, h⟩ => by cases h; exact ⟨a, by assumption⟩⟩

/-- C112: the numbers printed for a language are the lengths of the four listings. -/
theorem C112_counts (O : OLang) :
    O.counts = (O.sorts.length, O.predicates.length, O.functions.length, O.constants.length) := by
  simp [OLang.counts, OLang.sorts, OLang.predicates, OLang.functions]


/-! ### How one call changes the listings -/

/-- What a declaration adds to the listings (sorts, predicates, functions, constants). -/
structure Listing where
  sorts : List String
  preds : List Signature
  funs : List Signature
  consts : List (String × String)
deriving DecidableEq, Repr

/-- The four listings of a language. -/
def OLang.listing (O : OLang) : Listing := ⟨O.sorts, O.predicates, O.functions, O.constants⟩

/-- The listings with one more entry, at the end of the listing of its kind. -/
def Listing.add (l : Listing) : LObj → Listing
  | .sort n => { l with sorts := l.sorts ++ [n] }
  | .pred n a => { l with preds := l.preds ++ [(n, a)] }
  | .func n a => { l with funs := l.funs ++ [(n, a)] }
  | .const n s => { l with consts := l.consts ++ [(n, s)] }

/-- The listings without the predicate or function `n`. -/
def Listing.drop (l : Listing) (n : String) : Listing :=
  { l with preds := l.preds.filter (fun p => p.1 != n), funs := l.funs.filter (fun f => f.1 != n) }

theorem map_snoc_eq {β : Type} (keys : List String) (d d' : String → Option β) (z : β) (k : String) (b : β)
    (hk : k ∉ keys) (hs : ∀ x, x ≠ k → d' x = d x) (hb : d' k = some b) :
    (keys ++ [k]).map (fun x => (x, (d' x).getD z)) = keys.map (fun x => (x, (d x).getD z)) ++ [(k, b)] := by
  rw [List.map_append]
  congr 1
  · apply List.map_congr_left
    intro x hx
    rw [hs x (by rintro rfl; exact hk hx)]
  · simp [hb]

theorem map_filter_eq {β : Type} (keys : List String) (d d' : String → Option β) (z : β) (k : String)
    (hs : ∀ x, x ≠ k → d' x = d x) :
    (keys.filter (fun x => x != k)).map (fun x => (x, (d' x).getD z)) =
      (keys.map (fun x => (x, (d x).getD z))).filter (fun p => p.1 != k) := by
  rw [List.filter_map]
  have : ((fun p : String × β => p.1 != k) ∘ fun x => (x, (d x).getD z)) = fun x => x != k := rfl
  rw [this]
  apply List.map_congr_left
  intro x hx
  rw [hs x (by have := (List.mem_filter.mp hx).2; simpa using this)]

/-- All four dictionaries are unchanged. -/
def SameDicts (L L' : Lang) : Prop := L'.sorts = L.sorts ∧ L'.preds = L.preds ∧ L'.funs = L.funs ∧ L'.consts = L.consts

theorem run_same {n O op mark O' e} (hi : OInv O) (h : O.run n op mark = some (O', e))
    (hs : SameDicts O.lang O'.lang) : O'.listing = O.listing := by
  unfold OLang.run at h
  split at h
  · cases h
  · cases h
    obtain ⟨h1, h2, h3, h4⟩ := hs
    simp only at h1 h2 h3 h4
    simp only [OLang.listing, OLang.sorts, OLang.predicates, OLang.functions, OLang.constants, h1, h2, h3, h4,
      keysAfter_same hi.sorts (fun _ => rfl), keysAfter_same hi.preds (fun _ => rfl),
      keysAfter_same hi.funs (fun _ => rfl), keysAfter_same hi.consts (fun _ => rfl)]


theorem oreach_any {ok O} (h : OReach ok O) : OReach (OOp.only (fun _ => True) true) O := by
  induction h with
  | init => exact .init
  | step O op n O' e _ _ h1 h2 hb hs ih => exact .step O op n O' e ih (by cases op <;> simp [OOp.only]) h1 h2 hb hs

theorem declares_key {L op n o} (h : Declares L op n o) : op.key = n := by cases h <;> rfl

/-- What a successful declaration does to the dictionaries. -/
structure Bound (L L' : Lang) (n : String) (o : LObj) : Prop where
  fresh : L.index n = none
  bound : L'.index n = some o
  rest : SameExcept n L L'
  names : NameInv L
  names' : NameInv L'

theorem run_bound {ok O} (h : OReach ok O) {op n o k O' mark} (hd : Declares O.lang op n o)
    (hr : O.run k op mark = some (O', none)) : Bound O.lang O'.lang n o := by
  have hl := oreach_lang (oreach_any h)
  unfold OLang.run at hr
  split at hr
  · cases hr
  · rename_i L' e hs
    cases hr
    have hk := declares_key hd
    have hni := nameInv_reach hl
    refine ⟨?_, ?_, hk ▸ sameExcept_step hs, hni, nameInv_step hni hs⟩
    · cases hx : O.lang.index n with
      | none => rfl
      | some o' =>
        exfalso
        obtain ⟨e, he, _⟩ := C19_duplicate hl hd ((declared_iff_index hni n o').mpr hx) k
        rw [hs] at he; cases he
    · have := (C19_declares hd hs).1
      unfold Lang.get at this
      split at this
      · cases this; assumption
      · cases this

theorem Bound.dicts {L L' : Lang} {n : String} {o : LObj} (h : Bound L L' n o) :
    (L.sorts n = none ∧ L.preds n = none ∧ L.funs n = none ∧ L.consts n = none) ∧
    ((L'.sorts n).isSome = true ↔ o = .sort n) ∧ (∀ a, L'.preds n = some a ↔ o = .pred n a) ∧
    (∀ a, L'.funs n = some a ↔ o = .func n a) ∧ (∀ s, L'.consts n = some s ↔ o = .const n s) := by
  refine ⟨⟨?_, ?_, ?_, ?_⟩, ?_, ?_, ?_, ?_⟩
  · have := h.names.sort n; rw [h.fresh] at this; simpa using this
  · cases hx : L.preds n with
    | none => rfl
    | some a => have := (h.names.pred n a).mp hx; rw [h.fresh] at this; cases this
  · cases hx : L.funs n with
    | none => rfl
    | some a => have := (h.names.func n a).mp hx; rw [h.fresh] at this; cases this
  · cases hx : L.consts n with
    | none => rfl
    | some a => have := (h.names.const n a).mp hx; rw [h.fresh] at this; cases this
  · rw [h.names'.sort, h.bound, Option.some.injEq]
  · intro a; rw [h.names'.pred, h.bound, Option.some.injEq]
  · intro a; rw [h.names'.func, h.bound, Option.some.injEq]
  · intro a; rw [h.names'.const, h.bound, Option.some.injEq]

theorem not_some {β : Type} {d : Option β} (h : ∀ b, ¬ d = some b) : d = none := by
  cases d with
  | none => rfl
  | some b => exact absurd rfl (h b)

/-- A dictionary with key list `keys` after a call that touches at most the unused key `n`. -/
theorem dict_after {β : Type} {keys : List String} {d d' : String → Option β} {z : β} {n : String}
    (hk : KeyList keys (fun x => (d x).isSome)) (hn : d n = none) (hs : ∀ x, x ≠ n → d' x = d x) :
    (d' n = none → keysAfter keys (fun x => (d' x).isSome) n = keys ∧
      (keysAfter keys (fun x => (d' x).isSome) n).map (fun x => (x, (d' x).getD z)) = keys.map (fun x => (x, (d x).getD z))) ∧
    (∀ b, d' n = some b → keysAfter keys (fun x => (d' x).isSome) n = keys ++ [n] ∧
      (keysAfter keys (fun x => (d' x).isSome) n).map (fun x => (x, (d' x).getD z)) =
        keys.map (fun x => (x, (d x).getD z)) ++ [(n, b)]) := by
  have hnk : n ∉ keys := by rw [hk.2]; simp [hn]
  refine ⟨fun h0 => ?_, fun b hb => ?_⟩
  · have he : d' = d := by
      funext x; by_cases hx : x = n
      · rw [hx, h0, hn]
      · exact hs x hx
    subst he
    rw [keysAfter_same hk (fun _ => rfl)]
    exact ⟨rfl, rfl⟩
  · have hkey := keysAfter_new (k := n) (has' := fun x => (d' x).isSome) hk (by simp [hn]) (by simp [hb])
      (fun x hx => by simp only [hs x hx])
    rw [hkey]
    exact ⟨rfl, map_snoc_eq keys d d' z n b hnk hs hb⟩

/-- C112: a successful declaration adds its object at the end of the listing of its kind, and changes nothing else in
the listings. -/
theorem C112_declare {ok O} (h : OReach ok O) {op n o k O' op'} (hd : Declares O.lang op n o)
    (ho : op' = .call op ∨ op' = .builtinSymbol op) (hr : ostep k O op' = some (O', none)) :
    O'.listing = O.listing.add o := by
  have hr' : ∃ mark, O.run k op mark = some (O', none) := by
    rcases ho with rfl | rfl
    · exact ⟨false, hr⟩
    · exact ⟨true, hr⟩
  obtain ⟨mark, hr'⟩ := hr'
  have hb := run_bound h hd hr'
  obtain ⟨⟨n1, n2, n3, n4⟩, b1, b2, b3, b4⟩ := hb.dicts
  have hi := oinv_reach h
  have hk := declares_key hd
  unfold OLang.run at hr'
  split at hr'
  · cases hr'
  · rename_i L' e hs
    cases hr'
    simp only at b1 b2 b3 b4
    have s1 := dict_after (z := (⟨false, false⟩ : SortInfo)) hi.sorts n1 hb.rest.sorts
    have s2 := dict_after (z := ([] : List String)) hi.preds n2 hb.rest.preds
    have s3 := dict_after (z := ([] : List String)) hi.funs n3 hb.rest.funs
    have s4 := dict_after (z := "") hi.consts n4 hb.rest.consts
    simp only at s1 s2 s3 s4
    unfold OLang.listing OLang.sorts OLang.predicates OLang.functions OLang.constants
    simp only [hk]
    have m1 : ¬ o = .sort n → L'.sorts n = none := by
      intro hne; cases hx : L'.sorts n with
      | none => rfl
      | some i => exact absurd (b1.mp (by simp [hx])) hne
    have m2 : (∀ a, ¬ o = .pred n a) → L'.preds n = none := fun hne => not_some (fun a ha => hne a ((b2 a).mp ha))
    have m3 : (∀ a, ¬ o = .func n a) → L'.funs n = none := fun hne => not_some (fun a ha => hne a ((b3 a).mp ha))
    have m4 : (∀ a, ¬ o = .const n a) → L'.consts n = none := fun hne => not_some (fun a ha => hne a ((b4 a).mp ha))
    rcases hb.names'.name n o hb.bound with rfl | ⟨a, rfl⟩ | ⟨a, rfl⟩ | ⟨a, rfl⟩
    · obtain ⟨i, hi'⟩ := Option.isSome_iff_exists.mp (b1.mpr rfl)
      rw [(s1.2 i hi').1, (s2.1 (m2 nofun)).2, (s3.1 (m3 nofun)).2, (s4.1 (m4 nofun)).2]
      rfl
    · rw [(s1.1 (m1 nofun)).1, (s2.2 a ((b2 a).mpr rfl)).2, (s3.1 (m3 nofun)).2, (s4.1 (m4 nofun)).2]
      rfl
    · rw [(s1.1 (m1 nofun)).1, (s2.1 (m2 nofun)).2, (s3.2 a ((b3 a).mpr rfl)).2, (s4.1 (m4 nofun)).2]
      rfl
    · rw [(s1.1 (m1 nofun)).1, (s2.1 (m2 nofun)).2, (s3.1 (m3 nofun)).2, (s4.2 a ((b4 a).mpr rfl)).2]
      rfl


/-- C112: a call that raises leaves the listings as they were (any call but `attach_sort` with a parent of another
language, see `C19_atomic_refuted`). -/
theorem C112_fail {sb O} (h : OReach (OOp.only LOp.noForeign sb) O) {op k O' e} (hp : op.noForeign) (mark : Bool)
    (hset : ∀ s p, op = .setParent s p → (O.lang.sorts s).isSome ∧ (O.lang.sorts p).isSome)
    (hb : ∀ s p, op = .attachBuiltin s p → (O.lang.sorts p).isSome)
    (hr : ostep k O (if mark then .builtinSymbol op else .call op) = some (O', some e)) : O'.listing = O.listing := by
  have hr' : O.run k op mark = some (O', some e) := by cases mark <;> exact hr
  have hl : O'.lang = O.lang := by
    unfold OLang.run at hr'
    split at hr'
    · cases hr'
    · rename_i L' e' hs
      cases hr'
      exact C19_atomic (oreach_lang h) hp hset hb hs
  exact run_same (oinv_reach h) hr' (by rw [hl]; exact ⟨rfl, rfl, rfl, rfl⟩)

/-- Calls that declare nothing and remove nothing. -/
inductive Silent (L : Lang) : OOp → Prop where
  | isSubtype t s : Silent L (.call (.isSubtype t s))
  | setParent s p : Silent L (.call (.setParent s p))
  | builtinConstant c s ok i : L.sorts s = some i → i.builtin = true → Silent L (.call (.constant c s ok))
  | setBounds s lb ub : Silent L (.setBounds s lb ub)

/-- C112: queries, changes of parents or bounds, and constants of builtin sorts do not change the listings. -/
theorem C112_silent {ok O} (h : OReach ok O) {op k O' e} (hs : Silent O.lang op)
    (hr : ostep k O op = some (O', e)) : O'.listing = O.listing := by
  have hi := oinv_reach h
  cases hs with
  | isSubtype t s =>
    refine run_same hi hr ?_
    simp only [ostep, OLang.run] at hr
    split at hr
    · cases hr
    · rename_i L' e' hs
      cases hr
      simp only [lstep, isSubtype] at hs
      split at hs
      · cases hs; exact ⟨rfl, rfl, rfl, rfl⟩
      split at hs
      · cases hs; exact ⟨rfl, rfl, rfl, rfl⟩
      split at hs
      · cases hs; exact ⟨rfl, rfl, rfl, rfl⟩
      split at hs
      · cases hs
      · cases hs; exact ⟨rfl, rfl, rfl, rfl⟩
      · cases hs; exact ⟨rfl, rfl, rfl, rfl⟩
  | setParent s p =>
    refine run_same hi hr ?_
    simp only [ostep, OLang.run] at hr
    split at hr
    · cases hr
    · rename_i L' e' hs
      cases hr
      obtain ⟨h1, h2, h3, h4, _⟩ := sameNames_setParent hs
      exact ⟨h1, h2, h3, h4⟩
  | builtinConstant c s ok i h1 h2 =>
    refine run_same hi hr ?_
    simp only [ostep, OLang.run] at hr
    split at hr
    · cases hr
    · rename_i L' e' hs
      cases hr
      simp only [lstep, declConstant, h1, h2, if_true] at hs
      cases hs
      exact ⟨rfl, rfl, rfl, rfl⟩
  | setBounds s lb ub =>
    simp only [ostep] at hr
    split at hr
    · cases hr; rfl
    · cases hr; rfl

/-- C112: removing a symbol removes its entry from the listing and keeps the order of the others. -/
theorem C112_remove {ok O} (h : OReach ok O) {n k O'} (hr : ostep k O (.call (.removeSymbol n)) = some (O', none)) :
    O'.listing = O.listing.drop n ∧ ∀ o, ¬ Declared O'.lang n o := by
  have hi := oinv_reach h
  simp only [ostep, OLang.run] at hr
  split at hr
  · cases hr
  · rename_i L' e' hs
    cases hr
    have hf := sameExcept_step hs
    have hni' := nameInv_step hi.names hs
    simp only [LOp.key] at hf
    have hidx : L'.index n = none ∧ L'.sorts = O.lang.sorts ∧ L'.consts = O.lang.consts := by
      simp only [lstep, removeSymbol, Option.some.injEq] at hs
      split at hs
      · cases hs; exact ⟨by simp [upd], rfl, rfl⟩
      split at hs
      · cases hs; exact ⟨by simp [upd], rfl, rfl⟩
      · cases hs
    obtain ⟨hx, h1, h4⟩ := hidx
    have hnd : ∀ o, ¬ Declared L' n o := by
      intro o ho; rw [declared_iff_index hni', hx] at ho; cases ho
    have h2 : L'.preds n = none := not_some (fun a ha => hnd _ (.pred n a ha))
    have h3 : L'.funs n = none := not_some (fun a ha => hnd _ (.func n a ha))
    refine ⟨?_, hnd⟩
    unfold OLang.listing OLang.sorts OLang.predicates OLang.functions OLang.constants Listing.drop
    simp only [LOp.key, h1, h4, keysAfter_same hi.sorts (fun _ => rfl), keysAfter_same hi.consts (fun _ => rfl)]
    rw [keysAfter_del (has' := fun x => (L'.preds x).isSome) hi.preds (by simp [h2]) (fun x hx => by simp only [hf.preds x hx]),
      keysAfter_del (has' := fun x => (L'.funs x).isSome) hi.funs (by simp [h3]) (fun x hx => by simp only [hf.funs x hx]),
      map_filter_eq _ O.lang.preds L'.preds _ n hf.preds, map_filter_eq _ O.lang.funs L'.funs _ n hf.funs]

/-! ### The vocabulary -/

/-- A vocabulary: predicates, functions, constants. -/
abbrev Vocabulary := List Signature × List Signature × List (String × String)

/-- The vocabulary with one more entry; sorts are not part of it. -/
def vocAdd (v : Vocabulary) : LObj → Vocabulary
  | .sort _ => v
  | .pred n a => (v.1 ++ [(n, a)], v.2.1, v.2.2)
  | .func n a => (v.1, v.2.1 ++ [(n, a)], v.2.2)
  | .const n s => (v.1, v.2.1, v.2.2 ++ [(n, s)])

theorem run_marked {ok O} (h : OReach ok O) {op n o k O' mark} (hd : Declares O.lang op n o)
    (hr : O.run k op mark = some (O', none)) :
    O'.marked = (if mark then n :: O.marked else O.marked) ∧ n ∉ O.marked := by
  have hb := run_bound h hd hr
  have hi := oinv_reach h
  obtain ⟨⟨n1, n2, n3, n4⟩, -⟩ := hb.dicts
  have hn : n ∉ O.marked := by
    intro hm; rcases hi.marked n hm with hx | hx
    · rw [n2] at hx; cases hx
    · rw [n3] at hx; cases hx
  refine ⟨?_, hn⟩
  unfold OLang.run at hr
  split at hr
  · cases hr
  · rename_i L' e hs
    cases hr
    have hkept : O.marked.filter (fun x => (L'.preds x).isSome || (L'.funs x).isSome) = O.marked := by
      rw [List.filter_eq_self]
      intro x hx
      have hne : x ≠ n := by rintro rfl; exact hn hx
      have e1 := hb.rest.preds x hne
      have e2 := hb.rest.funs x hne
      simp only at e1 e2
      rw [e1, e2]
      simpa using hi.marked x hx
    simp only [hkept, declares_key hd, Option.isNone_none, Bool.and_true]

theorem filter_marked_cons (l : List Signature) (n : String) (m : List String) (hl : ∀ a, (n, a) ∉ l) :
    l.filter (fun p => !(n :: m).contains p.1) = l.filter (fun p => !m.contains p.1) := by
  apply List.filter_congr
  rintro ⟨x, a⟩ hx
  have : x ≠ n := by rintro rfl; exact hl a hx
  simp [this]

/-- C112: a successful declaration adds its signature at the end of its part of the vocabulary; the symbols that the
theories declare (`builtin`) do not enter the vocabulary. -/
theorem C112_vocabulary_declare {ok O} (h : OReach ok O) {op n o k O'} (hd : Declares O.lang op n o) :
    (ostep k O (.call op) = some (O', none) → O'.vocabulary = vocAdd O.vocabulary o) ∧
    ((∃ m a, op = .predicate m a) ∨ (∃ m a, op = .function m a) →
      ostep k O (.builtinSymbol op) = some (O', none) → O'.vocabulary = O.vocabulary) := by
  refine ⟨fun hr => ?_, fun ho hr => ?_⟩
  · have hl := C112_declare h hd (Or.inl rfl) hr
    obtain ⟨hm, hn⟩ := run_marked h hd hr
    have hb := run_bound h hd hr
    simp only [Bool.false_eq_true, if_false] at hm
    have hkind := hb.names'.name n o hb.bound
    have e1 : O'.predicates = (O.listing.add o).preds := by rw [← hl]; rfl
    have e2 : O'.functions = (O.listing.add o).funs := by rw [← hl]; rfl
    have e3 : O'.constants = (O.listing.add o).consts := by rw [← hl]; rfl
    unfold OLang.vocabulary
    rw [e1, e2, e3, hm]
    rcases hkind with rfl | ⟨a, rfl⟩ | ⟨a, rfl⟩ | ⟨a, rfl⟩ <;>
      simp [Listing.add, OLang.listing, vocAdd, List.filter_append, hn]
  · have hl := C112_declare h hd (Or.inr rfl) hr
    obtain ⟨hm, hn⟩ := run_marked h hd hr
    have hb := run_bound h hd hr
    obtain ⟨⟨n1, n2, n3, n4⟩, -⟩ := hb.dicts
    have e1 : O'.predicates = (O.listing.add o).preds := by rw [← hl]; rfl
    have e2 : O'.functions = (O.listing.add o).funs := by rw [← hl]; rfl
    have e3 : O'.constants = (O.listing.add o).consts := by rw [← hl]; rfl
    obtain ⟨_, ⟨_, lp⟩, ⟨_, lf⟩, _⟩ := C112_listings h
    have f1 : ∀ a, (n, a) ∉ O.predicates := by
      intro a ha; have := (lp n a).mp ha; cases this with | pred _ hx => rw [n2] at hx; cases hx
    have f2 : ∀ a, (n, a) ∉ O.functions := by
      intro a ha; have := (lf n a).mp ha; cases this with | func _ hx => rw [n3] at hx; cases hx
    have ho' : (∃ a, o = .pred n a) ∨ ∃ a, o = .func n a := by
      rcases ho with ⟨m, a, rfl⟩ | ⟨m, a, rfl⟩
      · cases hd; exact .inl ⟨_, rfl⟩
      · cases hd; exact .inr ⟨_, rfl⟩
    unfold OLang.vocabulary
    rw [e1, e2, e3, hm]
    have g1 := filter_marked_cons O.predicates n O.marked f1
    have g2 := filter_marked_cons O.functions n O.marked f2
    rcases ho' with ⟨a, rfl⟩ | ⟨a, rfl⟩ <;>
      simp only [Listing.add, OLang.listing, List.filter_append, if_true, g1, g2] <;> simp

/-- C112: the vocabulary lists only declared symbols, each at most once, and every declared constant. -/
theorem C112_vocabulary {ok O} (h : OReach ok O) :
    ((O.vocabulary.1.map (·.1)).Nodup ∧ ∀ p a, (p, a) ∈ O.vocabulary.1 → Declared O.lang p (.pred p a)) ∧
    ((O.vocabulary.2.1.map (·.1)).Nodup ∧ ∀ f a, (f, a) ∈ O.vocabulary.2.1 → Declared O.lang f (.func f a)) ∧
    ((O.vocabulary.2.2.map (·.1)).Nodup ∧ ∀ c s, (c, s) ∈ O.vocabulary.2.2 ↔ Declared O.lang c (.const c s)) := by
  obtain ⟨_, ⟨d1, m1⟩, ⟨d2, m2⟩, ⟨d3, m3⟩⟩ := C112_listings h
  refine ⟨⟨?_, fun p a hp => (m1 p a).mp (List.mem_filter.mp hp).1⟩, ⟨?_, fun p a hp => (m2 p a).mp (List.mem_filter.mp hp).1⟩,
    ⟨d3, m3⟩⟩
  · exact d1.sublist ((List.filter_sublist).map _)
  · exact d2.sublist ((List.filter_sublist).map _)


/-! ### The sort hierarchy -/

/-- C112: after every history, `children(s)` lists exactly the sorts whose direct parent is `s`, once each. -/
theorem C112_children {ok O} (h : OReach ok O) (s : String) :
    (O.children s).Nodup ∧ ∀ c, c ∈ O.children s ↔ O.lang.ParentOf c s := by
  have hi := oinv_reach h
  refine ⟨hi.par.1.filter _, fun c => ?_⟩
  unfold OLang.children Lang.ParentOf
  rw [List.mem_filter, hi.par.2]
  constructor
  · rintro ⟨_, h2⟩; exact eq_of_beq h2
  · intro hp; exact ⟨by simp [hp], by simp [hp]⟩

/-- In declaration-only histories `object` is the only sort without a parent. -/
structure RootInv (L : Lang) : Prop where
  reg : (L.sorts "object").isSome
  root : L.parent "object" = some none
  only : ∀ s, L.parent s = some none → s = "object"

theorem rootInv_setParent {n L s p ow L' e} (hi : RootInv L) (hs : s ≠ "object") (h : setParent n L s p ow = some (L', e)) :
    RootInv L' := by
  have hsame := sameExcept_setParent h
  have hp : ∀ L'' : Lang, L''.sorts = L.sorts → L''.parent = upd L.parent s (some (some p)) → RootInv L'' := by
    intro L'' h1 h2
    refine ⟨by rw [h1]; exact hi.reg, by rw [h2, upd_ne _ _ hs.symm]; exact hi.root, fun x hx => ?_⟩
    rw [h2] at hx
    by_cases hxs : x = s
    · rw [hxs, upd_self] at hx; cases hx
    · rw [upd_ne _ _ hxs] at hx; exact hi.only x hx
  unfold setParent at h
  split at h
  · cases h; exact hi
  · simp only at h
    split at h
    · cases h
    · cases h; exact hp _ rfl rfl
    · cases h; exact hp _ rfl rfl

theorem rootInv_attach {n L name i p L' e} (hi : RootInv L) (h : attachSort n L name i p = some (L', e)) : RootInv L' := by
  unfold attachSort at h
  split at h
  · cases h; exact hi
  · rename_i hc
    have hne : name ≠ "object" := by
      rintro rfl
      have := hi.reg
      unfold checkName at hc
      rw [if_pos this] at hc
      cases hc
    have h1 : RootInv { L with sorts := upd L.sorts name (some i), index := upd L.index name (some (.sort name)) } :=
      ⟨by simp only [upd_ne _ _ hne.symm]; exact hi.reg, hi.root, hi.only⟩
    simp only at h
    split at h
    · cases h; exact h1
    · exact rootInv_setParent h1 hne h

theorem rootInv_step {n L op L' e} (hi : RootInv L) (hp : op.plain) (h : lstep n L op = some (L', e)) : RootInv L' := by
  have keep : ∀ {L' : Lang}, L'.sorts = L.sorts → L'.parent = L.parent → RootInv L' := by
    intro L' h1 h2
    exact ⟨by rw [h1]; exact hi.reg, by rw [h2]; exact hi.root, by rw [h2]; exact hi.only⟩
  cases op with
  | sort name p =>
    simp only [lstep, declSort] at h
    split at h
    · cases h; exact hi
    · exact rootInv_attach hi h
  | attachBuiltin name p => simp only [lstep] at h; exact rootInv_attach hi h
  | attachForeign name => exact absurd hp (by simp [LOp.plain])
  | interval name p lb ub =>
    simp only [lstep, declInterval] at h
    split at h
    · cases h; exact hi
    rename_i hc
    have hne : name ≠ "object" := by
      rintro rfl
      have := hi.reg
      unfold checkName at hc
      rw [if_pos this] at hc
      cases hc
    split at h
    · cases h; exact hi
    split at h
    · cases h; exact hi
    split at h
    · cases h; exact hi
    split at h
    · cases h; exact hi
    · refine rootInv_setParent ?_ hne h
      exact ⟨by simp only [upd_ne _ _ hne.symm]; exact hi.reg, hi.root, hi.only⟩
  | predicate name a =>
    simp only [lstep, declPredicate] at h
    split at h
    · cases h; exact hi
    split at h
    · cases h; exact hi
    · cases h; exact keep rfl rfl
  | function name a =>
    simp only [lstep, declFunction] at h
    split at h
    · cases h; exact hi
    split at h
    · cases h; exact hi
    split at h
    · cases h; exact hi
    · cases h; exact keep rfl rfl
  | constant name s c =>
    simp only [lstep, declConstant] at h
    split at h
    · cases h; exact hi
    split at h
    · cases h; exact hi
    split at h
    · cases h; exact hi
    split at h
    · split at h
      · cases h; exact keep rfl rfl
      · cases h; exact hi
    · split at h
      · cases h
      · cases h; exact keep rfl rfl
  | removeSymbol name =>
    simp only [lstep, removeSymbol, Option.some.injEq] at h
    split at h
    · cases h; exact keep rfl rfl
    split at h
    · cases h; exact keep rfl rfl
    · cases h; exact hi
  | setParent s p => exact absurd hp (by simp [LOp.plain])
  | isSubtype t s =>
    simp only [lstep, isSubtype] at h
    split at h
    · cases h; exact hi
    split at h
    · cases h; exact hi
    split at h
    · cases h; exact hi
    split at h
    · cases h
    · cases h; exact keep rfl rfl
    · cases h; exact hi

theorem rootInv_reach {L} (h : LReach LOp.plain L) : RootInv L := by
  induction h with
  | init =>
    refine ⟨by simp [Lang.init, upd], by simp [Lang.init, upd], fun s hs => ?_⟩
    simp only [Lang.init, upd] at hs
    split at hs
    · assumption
    · cases hs
  | step L op n L' e _ hp _ _ hs ih => exact rootInv_step ih hp hs

/-- C112: in declared hierarchies, every registered sort except `object` is a child of exactly one registered sort, and
`object` is a child of none. -/
theorem C112_children_partition {sb O} (h : OReach (OOp.only LOp.plain sb) O) (c : String)
    (hc : Declared O.lang c (.sort c)) :
    (c ≠ "object" → ∃ s, (Declared O.lang s (.sort s) ∧ c ∈ O.children s) ∧ ∀ s', c ∈ O.children s' → s' = s) ∧
    (c = "object" → ∀ s, c ∉ O.children s) := by
  have hl := oreach_lang h
  have hr := rootInv_reach hl
  have hh := (domInv_reach hl).tree.hier
  have hreg : (O.lang.sorts c).isSome := by cases hc; assumption
  refine ⟨fun hne => ?_, ?_⟩
  · have hpar := (hh.reg c).mp hreg
    obtain ⟨q, hq⟩ := Option.isSome_iff_exists.mp hpar
    cases q with
    | none => exact absurd (hr.only c hq) hne
    | some p =>
      have hp : O.lang.ParentOf c p := hq
      refine ⟨p, ⟨.sort _ (hh.parReg c p hp), ((C112_children h p).2 c).mpr hp⟩, fun s' hs' => ?_⟩
      exact C20_tree (((C112_children h s').2 c).mp hs') hp
  · rintro rfl s hs
    have := ((C112_children h s).2 "object").mp hs
    unfold Lang.ParentOf at this
    rw [hr.root] at this
    cases this

/-- The sort is builtin. -/
def IsBuiltinSort (L : Lang) (s : String) : Prop := ∃ i, L.sorts s = some i ∧ i.builtin = true

theorem sortBuiltin_iff (O : OLang) (s : String) : O.sortBuiltin s = true ↔ IsBuiltinSort O.lang s := by
  unfold OLang.sortBuiltin IsBuiltinSort
  cases O.lang.sorts s <;> simp

theorem star_head {L : Lang} {s p c : String} (hp : L.ParentOf s p) (h : Star L.ParentOf s c) : c = s ∨ Star L.ParentOf p c := by
  cases h with
  | refl => exact .inl rfl
  | step _ b _ hb hs => rw [C20_tree hb hp] at hs; exact .inr hs

/-- C112: `get_closest_builtin_sort` returns the lowest builtin sort among the sort and its ancestors, or None when
there is none. -/
theorem C112_closest_builtin (O : OLang) (n : Nat) (s : String) (r : Option String)
    (h : O.closestBuiltin n s = some (.ok r)) :
    (∀ b, r = some b → IsBuiltinSort O.lang b ∧ Star O.lang.ParentOf s b ∧
        ∀ c, Star O.lang.ParentOf s c → IsBuiltinSort O.lang c → Star O.lang.ParentOf b c) ∧
    (r = none → ∀ c, Star O.lang.ParentOf s c → ¬ IsBuiltinSort O.lang c) := by
  induction n generalizing s with
  | zero => cases h
  | succ n ih =>
    simp only [OLang.closestBuiltin] at h
    split at h
    · rename_i hb
      cases h
      exact ⟨fun b hb' => by cases hb'; exact ⟨(sortBuiltin_iff O s).mp hb, .refl _, fun c hc _ => hc⟩, nofun⟩
    · rename_i hb
      have hnb : ¬ IsBuiltinSort O.lang s := fun h => hb ((sortBuiltin_iff O s).mpr h)
      split at h
      · cases h
      · rename_i hp
        cases h
        refine ⟨nofun, fun _ c hc => ?_⟩
        cases hc with
        | refl => exact hnb
        | step _ b _ hb' _ => unfold Lang.ParentOf at hb'; rw [hp] at hb'; cases hb'
      · rename_i p hp
        have := ih p h
        refine ⟨fun b hb' => ?_, fun hn c hc hcb => ?_⟩
        · obtain ⟨h1, h2, h3⟩ := this.1 b hb'
          refine ⟨h1, .step _ _ _ hp h2, fun c hc hcb => ?_⟩
          rcases star_head hp hc with rfl | hc'
          · exact absurd hcb hnb
          · exact h3 c hc' hcb
        · rcases star_head hp hc with rfl | hc'
          · exact hnb hcb
          · exact this.2 hn c hc' hcb

/-- C112: and in declared hierarchies it always returns. -/
theorem C112_closest_returns {sb O} (h : OReach (OOp.only LOp.plain sb) O) (s : String) (hs : Declared O.lang s (.sort s)) :
    ∃ n r, O.closestBuiltin n s = some (.ok r) := by
  have hl := oreach_lang h
  have ht := (domInv_reach hl).tree
  obtain ⟨r, hr⟩ := ht.rank
  have key : ∀ n s, (O.lang.sorts s).isSome → r s < n → ∃ x, O.closestBuiltin n s = some (.ok x) := by
    intro n
    induction n with
    | zero => intro s _ h; omega
    | succ n ih =>
      intro s hs hn
      simp only [OLang.closestBuiltin]
      split
      · exact ⟨_, rfl⟩
      · have hpar := (ht.hier.reg s).mp hs
        cases hp : O.lang.parent s with
        | none => rw [hp] at hpar; cases hpar
        | some q =>
          cases q with
          | none => exact ⟨_, rfl⟩
          | some p => exact ih p (ht.hier.parReg s p hp) (by have := hr s p hp; omega)
  have hreg : (O.lang.sorts s).isSome := by cases hs; assumption
  obtain ⟨x, hx⟩ := key (r s + 1) s hreg (by omega)
  exact ⟨_, x, hx⟩

/-! ### Well-formedness -/

theorem find_eq_none_iff {α : Type} (l : List α) (p : α → Bool) : l.find? p = none ↔ ∀ x ∈ l, p x = false := by
  simp [List.find?_eq_none]

/-- C112: in a language built by declarations (and changes of bounds), `check_well_formed` passes iff every sort that is
not an interval has a constant, of itself or of a subsort, and the bounds of every interval satisfy `ub + 1 ≠ lb`;
otherwise it raises a LanguageError. -/
theorem C112_well_formed {sb O} (h : OReach (OOp.only LOp.plain sb) O) :
    (O.checkWellFormed = none ∨ O.checkWellFormed = some .language) ∧
    (O.checkWellFormed = none ↔ ∀ s, Declared O.lang s (.sort s) →
      (¬ O.lang.isInterval s → ∃ c t, Declared O.lang c (.const c t) ∧ ¬ O.lang.isInterval t ∧ Star O.lang.ParentOf t s) ∧
      (O.lang.isInterval s → (O.bounds s).2 + 1 ≠ (O.bounds s).1)) := by
  have hl := oreach_lang h
  obtain ⟨⟨_, hm⟩, -⟩ := C112_listings h
  constructor
  · unfold OLang.checkWellFormed; split <;> simp
  · have : O.checkWellFormed = none ↔ ∀ s ∈ O.sorts, (O.cardinality s == 0) = false := by
      unfold OLang.checkWellFormed
      rw [← find_eq_none_iff]
      split
      · rename_i x hx; simp [hx]
      · rename_i hx; simp [hx]
    rw [this]
    have hcard : ∀ s, (O.cardinality s == 0) = false ↔
        ((¬ O.lang.isInterval s → ∃ c t, Declared O.lang c (.const c t) ∧ ¬ O.lang.isInterval t ∧ Star O.lang.ParentOf t s) ∧
        (O.lang.isInterval s → (O.bounds s).2 + 1 ≠ (O.bounds s).1)) := by
      intro s
      unfold OLang.cardinality
      by_cases hs : O.lang.isInterval s
      · rw [if_pos (isIntervalB_iff.mpr hs)]
        simp only [hs, not_true, false_implies, true_and, true_implies, beq_eq_false_iff_ne, ne_eq]
        constructor
        · intro h1 h2; exact h1 (by omega)
        · intro h1 h2; exact h1 (by omega)
      · rw [if_neg (fun h => hs (isIntervalB_iff.mp h))]
        simp only [hs, not_false_iff, true_implies, false_implies, and_true, beq_eq_false_iff_ne, ne_eq]
        constructor
        · intro hne
          cases hd : O.lang.dom s with
          | nil => rw [hd] at hne; simp at hne
          | cons c cs =>
            obtain ⟨t, h1, h2, h3⟩ := (C21_domains_partial hl c s hs).mp (by rw [hd]; simp)
            exact ⟨c, t, .const _ _ h1, h2, h3⟩
        · rintro ⟨c, t, h1, h2, h3⟩ hz
          have hc : O.lang.consts c = some t := by cases h1; assumption
          have := (C21_domains_partial hl c s hs).mpr ⟨t, hc, h2, h3⟩
          cases hd : O.lang.dom s with
          | nil => rw [hd] at this; cases this
          | cons _ _ => rw [hd] at hz; simp at hz; omega
    constructor
    · intro hall s hs; exact (hcard s).mp (hall s ((hm s).mpr hs))
    · intro hall s hs; exact (hcard s).mpr (hall s ((hm s).mp hs))

/-- The bounds of every interval are in order. -/
def BoundsOrdered (O : OLang) : Prop := ∀ s, O.lang.isInterval s → (O.bounds s).1 < (O.bounds s).2

theorem builtinBounds_ordered (n : String) : (builtinBounds n).1 < (builtinBounds n).2 := by
  unfold builtinBounds; split
  · decide
  split
  · decide
  · decide

theorem setParent_sorts {n L s p ow L' e} (h : setParent n L s p ow = some (L', e)) : L'.sorts = L.sorts :=
  (sameNames_setParent h).1

theorem attach_sorts {n L name i p L'} (h : attachSort n L name i p = some (L', none)) :
    L'.sorts = upd L.sorts name (some i) := by
  unfold attachSort at h
  split at h
  · cases h
  · simp only at h
    split at h
    · cases h
    · rw [setParent_sorts h]

/-- A successful declaration either makes one new interval, with ordered bounds, or none. -/
theorem new_interval {n L op L'} (h : lstep n L op = some (L', none)) (b : String → Int × Int)
    (hb : ∀ s, L.isInterval s → (b s).1 < (b s).2) (s : String) (hs : L'.isInterval s) :
    (boundsAfter b op none s).1 < (boundsAfter b op none s).2 := by
  have hf := sameExcept_step h
  have keep : L'.sorts = L.sorts → L.isInterval s := by
    intro he; unfold Lang.isInterval at hs ⊢; rw [he] at hs; exact hs
  cases op with
  | sort name p =>
    simp only [boundsAfter]
    simp only [lstep, declSort] at h
    split at h
    · cases h
    · apply hb
      obtain ⟨i, h1, h2⟩ := hs
      rw [attach_sorts h] at h1
      unfold upd at h1
      split at h1
      · cases h1; cases h2
      · exact ⟨i, h1, h2⟩
  | attachBuiltin name p =>
    simp only [boundsAfter, upd]
    split
    · exact builtinBounds_ordered _
    · rename_i hne
      apply hb
      obtain ⟨i, h1, h2⟩ := hs
      exact ⟨i, by rw [← hf.sorts s hne]; exact h1, h2⟩
  | attachForeign name =>
    simp only [lstep] at h
    unfold attachSort at h
    split at h <;> cases h
  | interval name p lb ub =>
    simp only [boundsAfter, upd]
    split
    · simp only [lstep, declInterval] at h
      split at h
      · cases h
      split at h
      · cases h
      split at h
      · cases h
      split at h
      · cases h
      split at h
      · cases h
      · simp only; omega
    · rename_i hne
      apply hb
      obtain ⟨i, h1, h2⟩ := hs
      exact ⟨i, by rw [← hf.sorts s hne]; exact h1, h2⟩
  | predicate name a =>
    simp only [lstep, declPredicate] at h
    split at h
    · cases h
    split at h
    · cases h
    · cases h; exact hb s (keep rfl)
  | function name a =>
    simp only [lstep, declFunction] at h
    split at h
    · cases h
    split at h
    · cases h
    split at h
    · cases h
    · cases h; exact hb s (keep rfl)
  | constant name t c =>
    simp only [lstep, declConstant] at h
    split at h
    · cases h
    split at h
    · have he : L = L' := by
        cases c with
        | true => simp only [if_true] at h; cases h; rfl
        | false => cases h
      exact hb s (keep (by rw [he]))
    split at h
    · cases h
    split at h
    · split at h
      · cases h; exact hb s (keep rfl)
      · cases h
    · split at h
      · cases h
      · cases h; exact hb s (keep rfl)
  | removeSymbol name =>
    simp only [lstep, removeSymbol, Option.some.injEq] at h
    split at h
    · cases h; exact hb s (keep rfl)
    split at h
    · cases h; exact hb s (keep rfl)
    · cases h
  | setParent a p => exact hb s (keep (setParent_sorts h))
  | isSubtype t a =>
    simp only [lstep, isSubtype] at h
    split at h
    · cases h; exact hb s (keep rfl)
    split at h
    · cases h; exact hb s (keep rfl)
    split at h
    · cases h; exact hb s (keep rfl)
    split at h
    · cases h
    · cases h; exact hb s (keep rfl)
    · cases h; exact hb s (keep rfl)

theorem bounds_ordered {O} (h : OReach (OOp.only LOp.noForeign false) O) : BoundsOrdered O := by
  induction h with
  | init =>
    rintro s ⟨i, h1, h2⟩
    simp only [OLang.init, Lang.init, upd] at h1
    split at h1
    · cases h1; cases h2
    · cases h1
  | step O op n O' e hO hok h1 h2 hb hs ih =>
    have run : ∀ op mark, op.noForeign → (∀ s p, op = .setParent s p → (O.lang.sorts s).isSome ∧ (O.lang.sorts p).isSome) →
        (∀ s p, op = .attachBuiltin s p → (O.lang.sorts p).isSome) → O.run n op mark = some (O', e) → BoundsOrdered O' := by
      intro op mark ho a b hr
      unfold OLang.run at hr
      split at hr
      · cases hr
      · rename_i L' e' hl
        cases hr
        cases e with
        | none => exact fun s hs => new_interval hl O.bounds ih s hs
        | some e =>
          have := C19_atomic (oreach_lang hO) ho a b hl
          subst this
          have hba : boundsAfter O.bounds op (some e) = O.bounds := by cases op <;> rfl
          intro s hs
          simp only [hba]
          exact ih s hs
    cases op with
    | call op => exact run op false hok (fun s p e => h1 s p (by rw [e])) (fun s p e => h2 s p (by rw [e])) hs
    | builtinSymbol op =>
      rcases hb op rfl with ⟨m, a, rfl⟩ | ⟨m, a, rfl⟩
      · exact run (.predicate m a) true hok (by intro s p e; cases e) (by intro s p e; cases e) hs
      · exact run (.function m a) true hok (by intro s p e; cases e) (by intro s p e; cases e) hs
    | setBounds s lb ub => cases hok

/-- C112: an interval has the bounds it was declared or attached with, until `set_bounds` changes them; other sorts keep theirs. -/
theorem C112_bounds {O O' : OLang} {k : Nat} :
    (∀ n p lb ub (mark : Bool), ostep k O (if mark then .builtinSymbol (.interval n p lb ub) else .call (.interval n p lb ub)) = some (O', none) →
      O'.bounds n = (lb, ub) ∧ ∀ s, s ≠ n → O'.bounds s = O.bounds s) ∧
    (∀ s lb ub, ostep k O (.setBounds s lb ub) = some (O', none) → O.lang.isInterval s ∧ O'.bounds s = (lb, ub) ∧ ∀ t, t ≠ s → O'.bounds t = O.bounds t) ∧
    (∀ p, ostep k O (.call (.attachBuiltin "Natural" p)) = some (O', none) → O'.bounds "Natural" = (0, 2 ^ 32 - 1)) ∧
    (∀ p, ostep k O (.call (.attachBuiltin "Integer" p)) = some (O', none) → O'.bounds "Integer" = (-(2 ^ 31 - 1), 2 ^ 31 - 1)) ∧
    (∀ p, ostep k O (.call (.attachBuiltin "Real" p)) = some (O', none) → O'.bounds "Real" = (-340282 * 10 ^ 33, 340282 * 10 ^ 33)) := by
  have key : ∀ op mark, O.run k op mark = some (O', none) → O'.bounds = boundsAfter O.bounds op none := by
    intro op mark h
    unfold OLang.run at h
    split at h
    · cases h
    · cases h; rfl
  refine ⟨fun n p lb ub mark h => ?_, fun s lb ub h => ?_, fun p h => ?_, fun p h => ?_, fun p h => ?_⟩
  · have : O'.bounds = boundsAfter O.bounds (.interval n p lb ub) none := by
      cases mark
      · exact key _ false h
      · exact key _ true h
    rw [this]
    exact ⟨by simp [boundsAfter, upd], fun s hs => by simp [boundsAfter, upd, hs]⟩
  · simp only [ostep] at h
    split at h
    · rename_i hi
      cases h
      exact ⟨isIntervalB_iff.mp hi, by simp [upd], fun t ht => by simp [upd, ht]⟩
    · cases h
  · rw [key _ false h]; rfl
  · rw [key _ false h]; rfl
  · rw [key _ false h]; rfl

/-- C112: as long as bounds are not changed, intervals are never empty, and so `check_well_formed` passes iff every sort
that is not an interval has a constant. -/
theorem C112_well_formed_intervals {O} (h : OReach (OOp.only LOp.plain false) O) :
    (∀ s, O.lang.isInterval s → 2 ≤ O.cardinality s) ∧
    (O.checkWellFormed = none ↔ ∀ s, Declared O.lang s (.sort s) → ¬ O.lang.isInterval s →
      ∃ c t, Declared O.lang c (.const c t) ∧ ¬ O.lang.isInterval t ∧ Star O.lang.ParentOf t s) := by
  have hn : OReach (OOp.only LOp.noForeign false) O := by
    induction h with
    | init => exact .init
    | step O op n O' e _ hok h1 h2 hb hs ih =>
      refine .step O op n O' e ih ?_ h1 h2 hb hs
      cases op with
      | call op => cases op <;> simp_all [OOp.only, LOp.plain, LOp.noForeign]
      | builtinSymbol op => cases op <;> simp_all [OOp.only, LOp.plain, LOp.noForeign]
      | setBounds s lb ub => exact hok
  have hbo := bounds_ordered hn
  refine ⟨fun s hs => ?_, ?_⟩
  · unfold OLang.cardinality
    rw [if_pos (isIntervalB_iff.mpr hs)]
    have := hbo s hs
    omega
  · rw [(C112_well_formed h).2]
    constructor
    · intro hall s hs hi; exact (hall s hs).1 hi
    · intro hall s hs
      exact ⟨hall s hs, fun hi => by have := hbo s hi; omega⟩

/-! ### The dump -/

theorem lstep_funs {n L op L' e} (h : lstep n L op = some (L', e)) (ho : ∀ m b, op ≠ .function m b) (f : String)
    (a : List String) (hf : L'.funs f = some a) : L.funs f = some a := by
  have at' : ∀ {n L name i p L' e}, attachSort n L name i p = some (L', e) → L'.funs = L.funs := by
    intro n L name i p L' e h
    unfold attachSort at h
    split at h
    · cases h; rfl
    · simp only at h
      split at h
      · cases h; rfl
      · rw [(sameNames_setParent h).2.2.1]
  cases op with
  | sort name p =>
    simp only [lstep, declSort] at h
    split at h
    · cases h; exact hf
    · rw [← at' h]; exact hf
  | attachBuiltin name p => simp only [lstep] at h; rw [← at' h]; exact hf
  | attachForeign name => simp only [lstep] at h; rw [← at' h]; exact hf
  | interval name p lb ub =>
    simp only [lstep, declInterval] at h
    split at h
    · cases h; exact hf
    split at h
    · cases h; exact hf
    split at h
    · cases h; exact hf
    split at h
    · cases h; exact hf
    split at h
    · cases h; exact hf
    · rw [(sameNames_setParent h).2.2.1] at hf; exact hf
  | predicate name a =>
    simp only [lstep, declPredicate] at h
    split at h
    · cases h; exact hf
    split at h
    · cases h; exact hf
    · cases h; exact hf
  | function name a => exact absurd rfl (ho name a)
  | constant name s c =>
    simp only [lstep, declConstant] at h
    split at h
    · cases h; exact hf
    split at h
    · cases h; exact hf
    split at h
    · cases h; exact hf
    split at h
    · split at h
      · cases h; exact hf
      · cases h; exact hf
    · split at h
      · cases h
      · cases h; exact hf
  | removeSymbol name =>
    simp only [lstep, removeSymbol, Option.some.injEq] at h
    split at h
    · cases h; exact hf
    split at h
    · cases h
      simp only [upd] at hf
      split at hf
      · cases hf
      · exact hf
    · cases h; exact hf
  | setParent s p => simp only [lstep] at h; rw [(sameNames_setParent h).2.2.1] at hf; exact hf
  | isSubtype t s =>
    simp only [lstep, isSubtype] at h
    split at h
    · cases h; exact hf
    split at h
    · cases h; exact hf
    split at h
    · cases h; exact hf
    split at h
    · cases h
    · cases h; exact hf
    · cases h; exact hf

/-- Functions are never declared without a codomain. -/
theorem functions_nonempty {ok L} (h : LReach ok L) : ∀ f a, L.funs f = some a → a ≠ [] := by
  induction h with
  | init => intro f a h; cases h
  | step L op n L' e _ _ _ _ hs ih =>
    intro f a hf
    by_cases hk : f = op.key
    · cases op with
      | function name args =>
        simp only [lstep, declFunction] at hs
        split at hs
        · cases hs; exact ih f a hf
        split at hs
        · cases hs; exact ih f a hf
        split at hs
        · cases hs; exact ih f a hf
        · rename_i hne
          cases hs
          simp only [upd] at hf
          split at hf
          · cases hf; intro he; rw [he] at hne; exact hne rfl
          · exact ih f a hf
      | _ => refine ih f a (lstep_funs hs (by intro m b; simp) f a hf)
    · rw [(sameExcept_step hs).funs f hk] at hf
      exact ih f a hf

/-- The name of a dumped sort. -/
def SortDump.name : SortDump → String
  | .enumerated n _ => n
  | .interval n _ _ => n

/-- C112: `dump` mentions the declared sorts, predicates and functions in the order of the listings; the dumped domain of
a sort is the set of its constants, and functions are split into domain and codomain. -/
theorem C112_dump {sb O} (h : OReach (OOp.only LOp.plain sb) O) :
    O.dump.1.map SortDump.name = O.sorts ∧
    (∀ s dom, .enumerated s dom ∈ O.dump.1 → ∀ c, c ∈ dom ↔
      ∃ t, Declared O.lang c (.const c t) ∧ ¬ O.lang.isInterval t ∧ Star O.lang.ParentOf t s) ∧
    (∀ s lb ub, .interval s lb ub ∈ O.dump.1 ↔ Declared O.lang s (.sort s) ∧ O.lang.isInterval s ∧ (lb, ub) = O.bounds s) ∧
    O.dump.2.1 = O.predicates ∧
    (∀ f d c, (f, d, c) ∈ O.dump.2.2 ↔ Declared O.lang f (.func f (d ++ [c]))) := by
  have hl := oreach_lang h
  refine ⟨?_, ?_, ?_, rfl, ?_⟩
  · unfold OLang.dump OLang.sorts
    rw [List.map_map]
    conv => rhs; rw [← List.map_id O.sortKeys]
    apply List.map_congr_left
    intro s _
    simp only [Function.comp, OLang.dumpSort]
    split <;> rfl
  · intro s dom hm c
    obtain ⟨x, hx, he⟩ := List.mem_map.mp hm
    unfold OLang.dumpSort at he
    split at he
    · cases he
    · rename_i hni
      cases he
      rw [C21_domains_partial hl c s (fun h => hni (isIntervalB_iff.mpr h))]
      constructor
      · rintro ⟨t, h1, h2⟩; exact ⟨t, .const _ _ h1, h2⟩
      · rintro ⟨t, h1, h2⟩; exact ⟨t, by cases h1; assumption, h2⟩
  · intro s lb ub
    obtain ⟨⟨_, hs⟩, _⟩ := C112_listings h
    unfold OLang.dump
    simp only [List.mem_map]
    constructor
    · rintro ⟨x, hx, he⟩
      unfold OLang.dumpSort at he
      split at he
      · rename_i hi
        cases he
        exact ⟨(hs _).mp hx, isIntervalB_iff.mp hi, rfl⟩
      · cases he
    · rintro ⟨h1, h2, h3⟩
      refine ⟨s, (hs s).mpr h1, ?_⟩
      unfold OLang.dumpSort
      rw [if_pos (isIntervalB_iff.mpr h2), ← h3]
  · intro f d c
    obtain ⟨_, _, ⟨_, hf⟩, _⟩ := C112_listings h
    have hne := functions_nonempty hl
    unfold OLang.dump
    simp only [List.mem_map]
    constructor
    · rintro ⟨⟨g, a⟩, hg, he⟩
      have hd := (hf g a).mp hg
      have ha : O.lang.funs g = some a := by cases hd; assumption
      simp only [dumpFunction, Prod.mk.injEq] at he
      obtain ⟨rfl, h2, h3⟩ := he
      have : a = d ++ [c] := by
        rw [← h2, ← h3]
        have hna := hne _ _ ha
        have hg : a.getLastD "" = a.getLast hna := by
          rw [List.getLastD_eq_getLast?, List.getLast?_eq_some_getLast hna]; rfl
        rw [hg, List.dropLast_append_getLast]
      rw [← this]; exact hd
    · intro hd
      exact ⟨(f, d ++ [c]), (hf f _).mpr hd, by simp [dumpFunction]⟩


/-! ### A concrete language -/

/-- Runs calls, ignoring the errors raised. -/
def runO (n : Nat) : OLang → List OOp → Option OLang
  | O, [] => some O
  | O, op :: ops => match ostep n O op with | some (O', _) => runO n O' ops | none => none

/-- The conditions of `OReach` on the calls of a list. -/
def OkCalls (ok : OOp → Prop) (n : Nat) : OLang → List OOp → Prop
  | _, [] => True
  | O, op :: ops =>
    (ok op ∧ (∀ s p, op = .call (.setParent s p) → (O.lang.sorts s).isSome ∧ (O.lang.sorts p).isSome) ∧
      (∀ s p, op = .call (.attachBuiltin s p) → (O.lang.sorts p).isSome) ∧
      (∀ op', op = .builtinSymbol op' → (∃ n a, op' = .predicate n a) ∨ ∃ n a, op' = .function n a)) ∧
    ∀ O' e, ostep n O op = some (O', e) → OkCalls ok n O' ops

theorem runO_reach {ok : OOp → Prop} {n : Nat} : ∀ (ops : List OOp) {O O' : OLang}, OReach ok O → OkCalls ok n O ops →
    runO n O ops = some O' → OReach ok O'
  | [], O, O', h, _, hr => by cases hr; exact h
  | op :: ops, O, O', h, hok, hr => by
    simp only [runO] at hr
    split at hr
    · rename_i O1 e1 hs
      exact runO_reach ops (.step O op n O1 e1 h hok.1.1 hok.1.2.1 hok.1.2.2.1 hok.1.2.2.2 hs) (hok.2 _ _ hs) hr
    · cases hr

/-- A language with sorts, an interval, predicates (one of them builtin), a function and constants; one predicate is
removed and declared again. -/
def demoCalls : List OOp := [.call (.attachBuiltin "Real" "object"), .call (.attachBuiltin "Integer" "Real"),
  .call (.attachBuiltin "Natural" "Integer"), .call (.sort "place" "object"), .call (.sort "depot" "place"),
  .call (.interval "level" "Natural" 0 5), .builtinSymbol (.predicate "=" ["object", "object"]),
  .call (.predicate "at" ["place"]), .call (.predicate "open" ["depot"]), .call (.removeSymbol "at"),
  .call (.predicate "at" ["place", "place"]), .call (.function "fuel" ["place", "level"]),
  .call (.constant "d1" "depot" true)]

def demoO : OLang := (runO 9 OLang.init demoCalls).getD OLang.init

theorem demoO_reach : OReach (OOp.only LOp.plain false) demoO := by
  have hr : runO 9 OLang.init demoCalls = some demoO := by
    unfold demoO
    have h : (runO 9 OLang.init demoCalls).isSome := by decide
    cases h' : runO 9 OLang.init demoCalls with
    | none => rw [h'] at h; cases h
    | some L => rfl
  refine runO_reach demoCalls .init ?_ hr
  unfold demoCalls
  refine ⟨⟨trivial, nofun, ?_, nofun⟩, fun O1 e1 h1 => ⟨⟨trivial, nofun, ?_, nofun⟩, fun O2 e2 h2 => ⟨⟨trivial, nofun, ?_, nofun⟩,
    fun O3 e3 h3 => ?_⟩⟩⟩
  · intro s p h; cases h; decide
  · intro s p h; cases h; cases h1; decide
  · intro s p h; cases h; cases h1; cases h2; decide
  · refine ⟨⟨trivial, nofun, nofun, nofun⟩, fun _ _ _ => ⟨⟨trivial, nofun, nofun, nofun⟩, fun _ _ _ =>
      ⟨⟨trivial, nofun, nofun, nofun⟩, fun _ _ _ => ⟨⟨trivial, nofun, nofun, ?_⟩, fun _ _ _ =>
      ⟨⟨trivial, nofun, nofun, nofun⟩, fun _ _ _ => ⟨⟨trivial, nofun, nofun, nofun⟩, fun _ _ _ =>
      ⟨⟨trivial, nofun, nofun, nofun⟩, fun _ _ _ => ⟨⟨trivial, nofun, nofun, nofun⟩, fun _ _ _ =>
      ⟨⟨trivial, nofun, nofun, nofun⟩, fun _ _ _ => ⟨⟨trivial, nofun, nofun, nofun⟩, fun _ _ _ => trivial⟩⟩⟩⟩⟩⟩⟩⟩⟩⟩
    intro op' h; cases h; exact .inl ⟨_, _, rfl⟩

example : demoO.sorts = ["object", "Real", "Integer", "Natural", "place", "depot", "level"] := by decide
example : demoO.vocabulary = ([("open", ["depot"]), ("at", ["place", "place"])], [("fuel", ["place", "level"])],
  [("d1", "depot")]) := by decide
example : demoO.predicates.map (·.1) = ["=", "open", "at"] := by decide
example : demoO.counts = (7, 3, 1, 1) := by decide
example : demoO.children "object" = ["Real", "place"] ∧ demoO.children "Natural" = ["level"] := by decide
example : demoO.closestBuiltin 9 "level" = some (.ok (some "Natural")) ∧ demoO.closestBuiltin 9 "depot" = some (.ok none) := by
  constructor <;> rfl
example : demoO.checkWellFormed = none := by decide
example : OLang.init.checkWellFormed = some .language := by decide
example : demoO.dump.2.2 = [("fuel", ["place"], "level")] := by decide
example : demoO.dumpSort "place" = .enumerated "place" ["d1"] ∧ demoO.dumpSort "level" = .interval "level" 0 5 := by decide

/-- An interval contains some integer. -/
def NonEmptyInterval (O : OLang) (s : String) : Prop := ∃ v : Int, (O.bounds s).1 ≤ v ∧ v ≤ (O.bounds s).2

/-- C112 in full for `check_well_formed`: it passes only if every interval has a value. -/
def C112_well_formed_full : Prop := ∀ O, OReach (OOp.only LOp.plain true) O → O.checkWellFormed = none →
  ∀ s, Declared O.lang s (.sort s) → O.lang.isInterval s → NonEmptyInterval O s

/-- The full statement is false: after `set_bounds(5, 2)` the interval is empty but its cardinality is reported as `-2`,
and the check passes. -/
theorem C112_well_formed_refuted : ¬ C112_well_formed_full := by
  intro h
  have hd : OReach (OOp.only LOp.plain true) demoO := by
    have : ∀ {O}, OReach (OOp.only LOp.plain false) O → OReach (OOp.only LOp.plain true) O := by
      intro O h
      induction h with
      | init => exact .init
      | step O op n O' e _ hok h1 h2 hb hs ih =>
        refine .step O op n O' e ih ?_ h1 h2 hb hs
        cases op with
        | call op => exact hok
        | builtinSymbol op => exact hok
        | setBounds s lb ub => rfl
    exact this demoO_reach
  let O' : OLang := { demoO with bounds := upd demoO.bounds "level" (5, 2) }
  have hs : ostep 0 demoO (.setBounds "level" 5 2) = some (O', none) := by
    simp only [ostep]
    rw [if_pos (by decide)]
  have hr : OReach (OOp.only LOp.plain true) O' :=
    OReach.step demoO (.setBounds "level" 5 2) 0 O' none hd rfl nofun nofun nofun hs
  have hw : O'.checkWellFormed = none := by decide
  have hi : O'.lang.isInterval "level" := by rw [← isIntervalB_iff]; decide
  obtain ⟨v, h1, h2⟩ := h O' hr hw "level" (.sort _ (by decide)) hi
  have e1 : (O'.bounds "level").1 = 5 := by decide
  have e2 : (O'.bounds "level").2 = 2 := by decide
  omega

example : ∃ O', ostep 0 demoO (.setBounds "level" 5 9) = some (O', none) ∧ O'.bounds "level" = (5, 9) := by
  have hs : ostep 0 demoO (.setBounds "level" 5 9) = some ({ demoO with bounds := upd demoO.bounds "level" (5, 9) }, none) := by
    simp only [ostep]
    rw [if_pos (by decide)]
  exact ⟨_, hs, (C112_bounds.2.1 _ _ _ hs).2.1⟩

end Tarski

import Mathlib.Tactic.Common
import Mathlib.Order.Basic
import Mathlib.Data.List.Nodup
import Verif.DLPrims
import Verif.Props.Containers
/-! C109: the DL vocabulary of a language and its primitive concepts, roles and atoms. -/
namespace Tarski

/-! ### Specification -/

/-- The names of a language are distinct, over all of its registries (proved of languages in C18 and following). -/
def DLangData.Distinct (L : DLangData) : Prop := (L.preds.map (·.name) ++ L.funs.map (·.name) ++ L.sorts.map (·.name)).Nodup

/-- The registry of predicates holds predicates, that of functions functions. -/
def DLangData.Kinds (L : DLangData) : Prop :=
  (∀ p ∈ L.preds, ∃ n b s, p = .pred n b s) ∧ (∀ f ∈ L.funs, ∃ n b d c, f = .func n b d c)

/-- The DL vocabulary of a language: the predicates with at most two arguments, the functions with at most one, except `total-cost`, and the
types, except `number`; none of them built-in. -/
def InVocabulary (L : DLangData) (n : String) : DVocElem → Prop
  | .sym (.pred m b s) => n = m ∧ b = false ∧ .pred m b s ∈ L.preds ∧ s.length ≤ 2
  | .sym (.func m b d c) => n = m ∧ b = false ∧ .func m b d c ∈ L.funs ∧ d.length ≤ 1 ∧ m ≠ "total-cost"
  | .sort s => n = s.name ∧ s.builtin = false ∧ s ∈ L.sorts ∧ s.name ≠ "number"

/-- The signature of a symbol as a relation: the sorts of the arguments and, for a function, the value. -/
def DLangData.Relation (L : DLangData) (n : String) (sorts : List String) : Prop :=
  .pred n false sorts ∈ L.preds ∨ ∃ d c, .func n false d c ∈ L.funs ∧ sorts = d ++ [c]

/-! ### The vocabulary -/

theorem lookup_nodup {α β} [DecidableEq α] {l : List (α × β)} (h : (l.map (·.1)).Nodup) (a : α) (b : β) : dlookup l a = some b ↔ (a, b) ∈ l := by
  refine ⟨dlookup_some, fun hm => ?_⟩
  induction l with
  | nil => cases hm
  | cons x l ih =>
    obtain ⟨k, v⟩ := x
    rw [List.map_cons, List.nodup_cons] at h
    simp only [dlookup]
    rcases List.mem_cons.1 hm with e | hm
    · cases e; simp
    · rw [if_neg, ih h.2 hm]
      rintro rfl
      exact h.1 (List.mem_map.2 ⟨_, hm, rfl⟩)

/-- C109: looking a name up in the DL vocabulary of a language finds exactly the elements of the language that belong to it, and each name
once. -/
theorem C109_vocabulary (L : DLangData) (hd : L.Distinct) (hk : L.Kinds) (n : String) (x : DVocElem) :
    dlookup (dlVocabulary L) n = some x ↔ InVocabulary L n x := by
  have hnd : (((L.preds.filter fun p => !p.builtin && decide (p.arity ∈ [0, 1, 2])).map (fun p => (p.name, DVocElem.sym p))
    ++ (L.funs.filter fun f => !f.builtin && decide (f.arity ∈ [0, 1]) && decide (f.name ≠ "total-cost")).map (fun f => (f.name, DVocElem.sym f))
    ++ (L.sorts.filter fun s => !s.builtin && decide (s.name ≠ "number")).map (fun s => (s.name, DVocElem.sort s))).map (·.1)).Nodup := by
    refine List.Nodup.sublist ?_ hd
    simp only [List.map_append, List.map_map, Function.comp_def]
    exact ((List.filter_sublist.map _).append (List.filter_sublist.map _)).append (List.filter_sublist.map _)
  rw [dlVocabulary, dictOf_nodup _ hnd, lookup_nodup hnd]
  simp only [List.mem_append, List.mem_map, List.mem_filter, Bool.and_eq_true, Bool.not_eq_true', decide_eq_true_eq, Prod.mk.injEq]
  constructor
  · rintro ((⟨p, ⟨hp, hb, ha⟩, rfl, rfl⟩ | ⟨p, ⟨hp, ⟨hb, ha⟩, ht⟩, rfl, rfl⟩) | ⟨s, ⟨hs, hb, hn⟩, rfl, rfl⟩)
    · obtain ⟨m, b, s, rfl⟩ := hk.1 p hp
      refine ⟨rfl, hb, hp, ?_⟩
      simp [DPredFun.arity] at ha
      have : s.length = 0 ∨ s.length = 1 ∨ s.length = 2 := by simpa using ha
      omega
    · obtain ⟨m, b, d, c, rfl⟩ := hk.2 p hp
      refine ⟨rfl, hb, hp, ?_, ht⟩
      have : d.length = 0 ∨ d.length = 1 := by simpa [DPredFun.arity] using ha
      omega
    · exact ⟨rfl, hb, hs, hn⟩
  · intro h
    match x, h with
    | .sym (.pred m b s), ⟨e, hb, hp, hl⟩ =>
      refine .inl (.inl ⟨_, ⟨hp, hb, ?_⟩, e.symm, rfl⟩)
      simp only [DPredFun.arity, List.mem_cons, List.not_mem_nil, or_false]
      omega
    | .sym (.func m b d c), ⟨e, hb, hp, hl, ht⟩ =>
      refine .inl (.inr ⟨_, ⟨hp, ⟨hb, ?_⟩, ht⟩, e.symm, rfl⟩)
      simp only [DPredFun.arity, List.mem_cons, List.not_mem_nil, or_false]
      omega
    | .sort s, ⟨e, hb, hs, hn⟩ => exact .inr ⟨s, ⟨hs, hb, hn⟩, e.symm, rfl⟩

/-! ### Primitives -/

/-- What a symbol contributes to a list of primitives of `k` arguments. -/
def contrib (goals : List String) (k : Nat) (c g : DNamedCls) (p : DPredFun) : List DPrim :=
  if p.builtin = false ∧ p.sort.length = k then
    ⟨c, p.name, p.sort⟩ :: (if p.name ∈ goals then [⟨g, p.name, p.sort⟩] else [])
  else []

theorem uniformArity_eq (p : DPredFun) : p.uniformArity = p.sort.length := by cases p <;> simp [DPredFun.uniformArity, DPredFun.sort]

theorem primLoop_eq (goals : List String) : ∀ (ps : List DPredFun) (a : DPrims), primLoop goals ps a = .ok
    ⟨a.concepts ++ ps.flatMap (contrib goals 1 .concept .goalConcept), a.roles ++ ps.flatMap (contrib goals 2 .role .goalRole),
      a.atoms ++ ps.flatMap (contrib goals 0 .nullary .goalNullary)⟩
  | [], a => by simp [primLoop]
  | p :: ps, a => by
    simp only [primLoop]
    by_cases hb : p.builtin = true
    · rw [if_pos hb, primLoop_eq goals ps a]
      simp [contrib, hb]
    · rw [if_neg hb]
      have hb' : p.builtin = false := by simpa using hb
      by_cases h0 : p.uniformArity = 0
      · rw [if_pos h0]
        have h0' := h0
        rw [uniformArity_eq] at h0'
        obtain ⟨n, b, s, rfl⟩ : ∃ n b s, p = .pred n b s := by
          cases p with
          | pred n b s => exact ⟨n, b, s, rfl⟩
          | func n b d c => simp [DPredFun.uniformArity] at h0
        have hs : s = [] := by simpa [DPredFun.sort] using h0'
        subst hs
        have e : appendPrim mkNullary .nullary .goalNullary goals (.pred n b []) a.atoms =
            .ok (a.atoms ++ contrib goals 0 .nullary .goalNullary (.pred n b [])) := by
          by_cases hg : n ∈ goals <;> simp [appendPrim, mkNullary, contrib, DPredFun.name, DPredFun.sort, hb', hg]
        rw [e]
        simp only [primLoop_eq goals ps]
        simp [contrib, DPredFun.sort]
      · rw [if_neg h0]
        by_cases h1 : p.uniformArity = 1
        · rw [if_pos h1]
          have h1' := h1
          rw [uniformArity_eq] at h1'
          obtain ⟨s, hs⟩ := List.length_eq_one_iff.1 h1'
          have e : appendPrim mkConcept .concept .goalConcept goals p a.concepts = .ok (a.concepts ++ contrib goals 1 .concept .goalConcept p) := by
            by_cases hg : p.name ∈ goals <;> simp [appendPrim, mkConcept, contrib, h1, hs, hb', hg]
          rw [e]
          simp only [primLoop_eq goals ps]
          simp [contrib, hs]
        · rw [if_neg h1]
          by_cases h2 : p.uniformArity = 2
          · rw [if_pos h2]
            have h2' := h2
            rw [uniformArity_eq] at h2'
            have e : appendPrim mkRole .role .goalRole goals p a.roles = .ok (a.roles ++ contrib goals 2 .role .goalRole p) := by
              by_cases hg : p.name ∈ goals <;> simp [appendPrim, mkRole, contrib, h2, h2', hb', hg]
            rw [e]
            simp only [primLoop_eq goals ps]
            simp [contrib, h2']
          · rw [if_neg h2, primLoop_eq goals ps a]
            rw [uniformArity_eq] at h0 h1 h2
            simp [contrib, h0, h1, h2]

theorem mem_contrib (L : DLangData) (hk : L.Kinds) (goals : List String) (k : Nat) (c g : DNamedCls) (x : DPrim) :
    x ∈ (L.preds ++ L.funs).flatMap (contrib goals k c g) ↔
      L.Relation x.name x.sort ∧ x.sort.length = k ∧ (x.cls = c ∨ x.cls = g ∧ x.name ∈ goals) := by
  rw [List.mem_flatMap]
  have key : ∀ p, x ∈ contrib goals k c g p ↔ p.builtin = false ∧ p.name = x.name ∧ p.sort = x.sort ∧ x.sort.length = k ∧
      (x.cls = c ∨ x.cls = g ∧ x.name ∈ goals) := by
    intro p
    obtain ⟨xc, xn, xs⟩ := x
    rw [contrib]
    by_cases h : p.builtin = false ∧ p.sort.length = k
    · rw [if_pos h]
      by_cases hg : p.name ∈ goals
      · simp only [if_pos hg, List.mem_cons, List.not_mem_nil, or_false, DPrim.mk.injEq]
        constructor
        · rintro (⟨rfl, rfl, rfl⟩ | ⟨rfl, rfl, rfl⟩)
          · exact ⟨h.1, rfl, rfl, h.2, .inl rfl⟩
          · exact ⟨h.1, rfl, rfl, h.2, .inr ⟨rfl, hg⟩⟩
        · rintro ⟨-, rfl, rfl, -, rfl | ⟨rfl, -⟩⟩
          · exact .inl ⟨rfl, rfl, rfl⟩
          · exact .inr ⟨rfl, rfl, rfl⟩
      · simp only [if_neg hg, List.mem_singleton, DPrim.mk.injEq]
        constructor
        · rintro ⟨rfl, rfl, rfl⟩
          exact ⟨h.1, rfl, rfl, h.2, .inl rfl⟩
        · rintro ⟨-, rfl, rfl, -, rfl | ⟨-, h'⟩⟩
          · exact ⟨rfl, rfl, rfl⟩
          · exact absurd h' hg
    · rw [if_neg h]
      simp only [List.not_mem_nil, false_iff]
      rintro ⟨h1, -, h2, h3, -⟩
      subst h3
      exact h ⟨h1, congrArg _ h2⟩
  constructor
  · rintro ⟨p, hp, hx⟩
    obtain ⟨h1, h2, h3, h4, h5⟩ := (key p).1 hx
    refine ⟨?_, h4, h5⟩
    rcases List.mem_append.1 hp with hp | hp
    · obtain ⟨n, b, s, rfl⟩ := hk.1 p hp
      simp only [DPredFun.builtin] at h1
      subst h1
      left
      rw [← h2, ← h3]; exact hp
    · obtain ⟨n, b, d, e, rfl⟩ := hk.2 p hp
      simp only [DPredFun.builtin] at h1
      subst h1
      right
      refine ⟨d, e, ?_, h3.symm⟩
      rw [← h2]; exact hp
  · rintro ⟨h1 | ⟨d, e, h1, h2⟩, h3, h4⟩
    · exact ⟨_, List.mem_append.2 (.inl h1), (key _).2 ⟨rfl, rfl, rfl, h3, h4⟩⟩
    · exact ⟨_, List.mem_append.2 (.inr h1), (key _).2 ⟨rfl, rfl, h2.symm, h3, h4⟩⟩

/-- C109: the primitives are generated without an error, and they are: for every relation of the language with no, one or two arguments (functions
count their value as an argument) an atom, concept or role of its sorts, and another one for the goal if it is among the goal predicates;
and a concept for each nominal and each type. -/
theorem C109_primitives (L : DLangData) (hk : L.Kinds) (nominals : List (String × String)) (types : List DSortObj) (goals : List String) :
    ∃ r, generatePrims L nominals types goals = .ok r ∧
      (∀ x, x ∈ r.atoms ↔ L.Relation x.name x.sort ∧ x.sort = [] ∧ (x.cls = .nullary ∨ x.cls = .goalNullary ∧ x.name ∈ goals)) ∧
      (∀ x, x ∈ r.roles ↔ L.Relation x.name x.sort ∧ x.sort.length = 2 ∧ (x.cls = .role ∨ x.cls = .goalRole ∧ x.name ∈ goals)) ∧
      (∀ x, x ∈ r.concepts ↔ (L.Relation x.name x.sort ∧ x.sort.length = 1 ∧ (x.cls = .concept ∨ x.cls = .goalConcept ∧ x.name ∈ goals)) ∨
        (x.cls = .nominal ∧ ∃ s, x.sort = [s] ∧ (x.name, s) ∈ nominals) ∨
        (x.cls = .concept ∧ x.sort = [x.name] ∧ ∃ t ∈ types, t.name = x.name)) := by
  refine ⟨_, by rw [generatePrims, primLoop_eq], ?_, ?_, ?_⟩
  · intro x
    simp only [List.nil_append]
    rw [mem_contrib L hk, List.length_eq_zero_iff]
  · intro x
    simp only [List.nil_append]
    rw [mem_contrib L hk]
  · intro x
    simp only [List.nil_append, List.mem_append]
    rw [mem_contrib L hk]
    obtain ⟨xc, xn, xs⟩ := x
    simp only [List.mem_map, DPrim.mk.injEq, or_assoc]
    refine or_congr Iff.rfl (or_congr ?_ ?_)
    · constructor
      · rintro ⟨⟨n, s⟩, hm, rfl, rfl, rfl⟩
        exact ⟨rfl, s, rfl, hm⟩
      · rintro ⟨rfl, s, rfl, hm⟩
        exact ⟨_, hm, rfl, rfl, rfl⟩
    · constructor
      · rintro ⟨t, hm, rfl, rfl, rfl⟩
        exact ⟨rfl, rfl, t, hm, rfl⟩
      · rintro ⟨rfl, rfl, t, hm, rfl⟩
        exact ⟨t, hm, rfl, rfl, rfl⟩

theorem contrib_name {goals : List String} {k : Nat} {c g : DNamedCls} {p : DPredFun} {x : DPrim} (h : x ∈ contrib goals k c g p) :
    x.name = p.name := by
  rw [contrib] at h
  split at h
  · rcases List.mem_cons.1 h with rfl | h
    · rfl
    · split at h
      · rw [List.mem_singleton] at h; subst h; rfl
      · cases h
  · cases h

theorem nodup_contribs {goals : List String} {k : Nat} {c g : DNamedCls} (hcg : c ≠ g) : ∀ {ps : List DPredFun}, (ps.map (·.name)).Nodup →
    (ps.flatMap (contrib goals k c g)).Nodup
  | [], _ => List.nodup_nil
  | p :: ps, h => by
    rw [List.map_cons, List.nodup_cons] at h
    rw [List.flatMap_cons, List.nodup_append]
    refine ⟨?_, nodup_contribs hcg h.2, ?_⟩
    · rw [contrib]
      split
      · split
        · simp [hcg]
        · simp
      · simp
    · rintro x hx y hy rfl
      obtain ⟨q, hq, hy⟩ := List.mem_flatMap.1 hy
      exact h.1 (List.mem_map.2 ⟨q, hq, by rw [← contrib_name hy, contrib_name hx]⟩)

/-- … each of them once, if the nominals are distinct and the types are distinct sorts of the language. -/
theorem C109_once (L : DLangData) (hd : L.Distinct) (nominals : List (String × String)) (types : List DSortObj) (goals : List String)
    (hn : nominals.Nodup) (ht : (types.map (·.name)).Nodup) (hs : ∀ t ∈ types, t ∈ L.sorts) (r : DPrims)
    (h : generatePrims L nominals types goals = .ok r) : r.atoms.Nodup ∧ r.roles.Nodup ∧ r.concepts.Nodup := by
  rw [generatePrims, primLoop_eq] at h
  cases h
  have hps : ((L.preds ++ L.funs).map (·.name)).Nodup := by
    rw [List.map_append]; exact (List.nodup_append.1 hd).1
  simp only [List.nil_append]
  refine ⟨nodup_contribs (by decide) hps, nodup_contribs (by decide) hps, ?_⟩
  rw [List.nodup_append, List.nodup_append]
  refine ⟨⟨nodup_contribs (by decide) hps, ?_, ?_⟩, ?_, ?_⟩
  · refine hn.map ?_
    rintro ⟨a, b⟩ ⟨c, d⟩ e
    simp at e
    rw [e.1, e.2]
  · rintro x hx y hy rfl
    obtain ⟨p, hp, hx⟩ := List.mem_flatMap.1 hx
    obtain ⟨n, -, e⟩ := List.mem_map.1 hy
    rw [contrib] at hx
    subst e
    split at hx
    · simp at hx
    · cases hx
  · have : (types.map (·.name)).Nodup := ht
    refine List.Nodup.of_map (f := DPrim.name) ?_
    rw [List.map_map]; exact this
  · rintro x hx y hy rfl
    obtain ⟨t, htm, e⟩ := List.mem_map.1 hy
    rcases List.mem_append.1 hx with hx | hx
    · obtain ⟨p, hp, hx⟩ := List.mem_flatMap.1 hx
      have h1 := contrib_name hx
      rw [← e] at h1
      refine (List.nodup_append.1 hd).2.2 t.name ?_ t.name (List.mem_map.2 ⟨t, hs t htm, rfl⟩) rfl
      have h2 : t.name = p.name := h1
      rw [h2, ← List.map_append]
      exact List.mem_map.2 ⟨p, hp, rfl⟩
    · obtain ⟨n, -, e'⟩ := List.mem_map.1 hx
      rw [← e] at e'
      simp at e'

/-- A language with two predicates, a function and `total-cost`. -/
def dlExample : DLangData :=
  ⟨[.pred "on" false ["block", "block"], .pred "handempty" false [], .pred "=" true ["object", "object"]],
    [.func "loc" false ["block"] "place", .func "total-cost" false [] "number"], [⟨"object", false⟩, ⟨"block", false⟩, ⟨"place", false⟩, ⟨"number", false⟩]⟩

example : dlExample.Distinct ∧ dlExample.Kinds ∧ InVocabulary dlExample "loc" (.sym (.func "loc" false ["block"] "place")) := by
  refine ⟨by unfold DLangData.Distinct; decide, ⟨?_, ?_⟩, by simp [InVocabulary, dlExample]⟩ <;> simp [dlExample]

/-- `total-cost` is left out of the vocabulary, but there is a primitive concept for it. -/
theorem C109_total_cost : dlookup (dlVocabulary dlExample) "total-cost" = none ∧
    ∃ r, generatePrims dlExample [] [] ["on"] = .ok r ∧ (⟨.concept, "total-cost", ["number"]⟩ : DPrim) ∈ r.concepts ∧
      r.roles = [⟨.role, "on", ["block", "block"]⟩, ⟨.goalRole, "on", ["block", "block"]⟩, ⟨.role, "loc", ["block", "place"]⟩] := by
  refine ⟨by decide, _, rfl, by decide, by decide⟩

/-- C109: a nullary atom can be made exactly from a predicate without arguments, a primitive concept exactly from what has one
sort (predicates of arity 1 and functions without arguments), and a primitive role exactly from what has two. -/
theorem C109_constructors (k : DNamedCls) (p : DPredFun) (x : DPrim) :
    (mkNullary k p = .ok x ↔ (∃ b, p = .pred p.name b []) ∧ x = ⟨k, p.name, []⟩) ∧
    (mkConcept k p = .ok x ↔ ∃ s, p.sort = [s] ∧ x = ⟨k, p.name, [s]⟩) ∧
    (mkRole k p = .ok x ↔ ∃ s t, p.sort = [s, t] ∧ x = ⟨k, p.name, [s, t]⟩) := by
  cases p with
  | pred n b s =>
    match s with
    | [] => simp [mkNullary, mkConcept, mkRole, DPredFun.uniformArity, DPredFun.sort, DPredFun.name, @eq_comm DPrim]
    | [s1] => simp [mkNullary, mkConcept, mkRole, DPredFun.uniformArity, DPredFun.sort, DPredFun.name, @eq_comm DPrim]
    | [s1, s2] => simp [mkNullary, mkConcept, mkRole, DPredFun.uniformArity, DPredFun.sort, DPredFun.name, @eq_comm DPrim]
    | s1 :: s2 :: s3 :: ss => simp [mkNullary, mkConcept, mkRole, DPredFun.uniformArity, DPredFun.sort, DPredFun.name]
  | func n b d c =>
    match d with
    | [] => simp [mkNullary, mkConcept, mkRole, DPredFun.uniformArity, DPredFun.sort, DPredFun.name, @eq_comm DPrim]
    | [d1] => simp [mkNullary, mkConcept, mkRole, DPredFun.uniformArity, DPredFun.sort, DPredFun.name, @eq_comm DPrim]
    | d1 :: d2 :: ds => simp [mkNullary, mkConcept, mkRole, DPredFun.uniformArity, DPredFun.sort, DPredFun.name]

example : (match mkRole .role (.func "loc" false ["block"] "place") with | .ok x => some x | .error _ => none) =
    some ⟨.role, "loc", ["block", "place"]⟩ ∧
    (match mkNullary .nullary (.pred "on" false ["block"]) with | .ok x => some x | .error _ => none) = none := by decide

end Tarski

import Mathlib.Tactic.Common
import Mathlib.Data.List.Forall2
import Verif.LangAccess
import Verif.Props.Language
/-! C124: access to the elements of a language by their names. -/
namespace Tarski

/-! ### Specification (with `Declared` of `Props/Language.lean`) -/

/-- C124 in full, for the namespace: whatever is declared under a name is what the namespace gives for the name, and a name that is
not declared raises. -/
def C124_ns_full : Prop := ∀ (own : List String) (ok : LOp → Prop) (L : Lang), LReach ok L → ∀ name,
  (∀ o, nsGet own L name = .ok (.element o) ↔ Declared L name o) ∧
  (nsGet own L name = .error .undefinedVariable ↔ ∀ o, ¬ Declared L name o)

/-! ### Proof -/

theorem getTuple_ok {ok L} (h : LReach ok L) : ∀ (ns : List String) (os : List LObj), getTuple L ns = .ok os ↔ List.Forall₂ (Declared L) ns os
  | [], os => by cases os <;> simp [getTuple]
  | n :: ns, os => by
    unfold getTuple
    cases hn : L.get n with
    | error e =>
      simp only [reduceCtorEq, false_iff]
      intro hf
      cases hf with
      | cons hd _ => rw [← C19_get h, hn] at hd; cases hd
    | ok o =>
      have ho := (C19_get h n o).mp hn
      cases hm : getTuple L ns with
      | error e =>
        simp only [reduceCtorEq, false_iff]
        intro hf
        cases hf with
        | cons _ ht => rw [← getTuple_ok h, hm] at ht; cases ht
      | ok os' =>
        have hos := (getTuple_ok h ns os').mp hm
        constructor
        · intro he; cases he; exact .cons ho hos
        · intro hf
          cases hf with
          | cons hd ht =>
            rw [C19_names_unique h ho hd]
            have := (getTuple_ok h ns _).mpr ht
            rw [hm] at this; cases this; rfl

theorem getTuple_error {ok L} (h : LReach ok L) : ∀ (ns : List String) (e : Err), getTuple L ns = .error e ↔ e = .undefinedVariable ∧ ∃ n ∈ ns, ∀ o, ¬ Declared L n o
  | [], e => by simp [getTuple]
  | n :: ns, e => by
    unfold getTuple
    have hund : ∀ e, L.get n = .error e → e = .undefinedVariable := by
      intro e; unfold Lang.get; cases L.index n <;> simp [eq_comm]
    cases hn : L.get n with
    | error e' =>
      have := hund _ hn; subst this
      have hd := (C19_get_undefined h n).mp hn
      constructor
      · intro he; cases he; exact ⟨rfl, n, by simp, hd⟩
      · rintro ⟨rfl, _⟩; rfl
    | ok o =>
      have ho := (C19_get h n o).mp hn
      have hcons : (∃ m ∈ n :: ns, ∀ o, ¬ Declared L m o) ↔ ∃ m ∈ ns, ∀ o, ¬ Declared L m o := by
        constructor
        · rintro ⟨m, hm, hd⟩
          rcases List.mem_cons.mp hm with rfl | hm
          · exact absurd ho (hd o)
          · exact ⟨m, hm, hd⟩
        · rintro ⟨m, hm, hd⟩; exact ⟨m, List.mem_cons_of_mem _ hm, hd⟩
      rw [hcons, ← getTuple_error h ns e]
      cases getTuple L ns <;> simp

/-- C124: with one name `get` returns the element that is declared under the name. -/
theorem C124_get_one {ok L} (h : LReach ok L) (name : String) (r : Got) :
    L.getAny name [] = .ok r ↔ ∃ o, r = .one o ∧ Declared L name o := by
  unfold Lang.getAny
  cases hn : L.get name with
  | error e =>
    simp only [reduceCtorEq, false_iff]
    rintro ⟨o, -, ho⟩; rw [← C19_get h, hn] at ho; cases ho
  | ok o =>
    have ho := (C19_get h name o).mp hn
    constructor
    · intro he; cases he; exact ⟨o, rfl, ho⟩
    · rintro ⟨o', rfl, ho'⟩; rw [C19_names_unique h ho ho']

/-- C124: with several names `get` returns the tuple of the elements that are declared under the names, in their order and as often as they
are asked for. -/
theorem C124_get_many {ok L} (h : LReach ok L) (first second : String) (rest : List String) (r : Got) :
    L.getAny first (second :: rest) = .ok r ↔ ∃ os, r = .tuple os ∧ List.Forall₂ (Declared L) (first :: second :: rest) os := by
  unfold Lang.getAny
  simp only [← getTuple_ok h]
  cases getTuple L (first :: second :: rest) <;> simp [eq_comm]

/-- C124: `get` raises exactly when one of the names is not declared, and then it reports an undefined element. -/
theorem C124_get_error {ok L} (h : LReach ok L) (first : String) (args : List String) (e : Err) :
    L.getAny first args = .error e ↔ e = .undefinedVariable ∧ ∃ n ∈ first :: args, ∀ o, ¬ Declared L n o := by
  rw [← getTuple_error h]
  unfold Lang.getAny
  cases args with
  | nil => unfold getTuple; cases L.get first <;> simp [getTuple]
  | cons a as => cases getTuple L (first :: a :: as) <;> simp

/-- C124 for names other than `lang` and the attributes that every Python object has: the namespace gives what `get` gives, that is what is
declared, and raises when nothing is. -/
theorem C124_ns_partial {ok L} (h : LReach ok L) (own : List String) (name : String) (h1 : name ≠ "lang") (h2 : name ∉ own) :
    (∀ v, nsGet own L name = .ok v ↔ ∃ o, v = .element o ∧ Declared L name o) ∧
    (∀ e, nsGet own L name = .error e ↔ e = .undefinedVariable ∧ ∀ o, ¬ Declared L name o) := by
  have h' := C124_get_one h name
  have h'' := C124_get_error h name []
  simp only [Lang.getAny, List.mem_singleton, exists_eq_left] at h' h''
  unfold nsGet
  rw [if_neg h1, if_neg h2]
  constructor
  · intro v
    cases hn : L.get name with
    | error e => rw [hn] at h'; simp only [reduceCtorEq, false_iff] at h' ⊢; rintro ⟨o, -, ho⟩; exact h' _ ⟨o, rfl, ho⟩
    | ok o =>
      have ho := (C19_get h name o).mp hn
      constructor
      · intro he; cases he; exact ⟨o, rfl, ho⟩
      · rintro ⟨o', rfl, ho'⟩; rw [C19_names_unique h ho ho']
  · intro e
    have := h'' e
    cases hn : L.get name with
    | error e' => simpa [hn] using this
    | ok o => simpa [hn] using this

/-- A language with a predicate called `lang`. -/
def exNsLang : Lang := (((lstep 0 Lang.init (.predicate "lang" ["object"])).map Prod.fst).getD Lang.init)

theorem exNsLang_reach : LReach (fun _ => True) exNsLang := by
  refine .step Lang.init (.predicate "lang" ["object"]) 0 exNsLang none .init trivial (by simp) (by simp) ?_
  rfl

/-- C124 fails for a symbol called `lang`: the namespace gives the language instead. -/
theorem C124_ns_refuted : ¬ C124_ns_full := by
  intro h
  have hd : Declared exNsLang "lang" (.pred "lang" ["object"]) := by
    refine .pred _ _ ?_
    rfl
  have := ((h [] _ _ exNsLang_reach "lang").1 _).mpr hd
  cases this

/-- Non-vacuity: a declared predicate through `get` and through the namespace, and a name that is not declared. -/
example : exNsLang.getAny "lang" ["object"] = .ok (.tuple [.pred "lang" ["object"], .sort "object"]) ∧
    nsGet ["__class__"] exNsLang "object" = .ok (.element (.sort "object")) ∧ nsGet ["__class__"] exNsLang "p" = .error .undefinedVariable := by
  refine ⟨by rfl, by rfl, by rfl⟩

end Tarski

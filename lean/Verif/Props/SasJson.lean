import Mathlib.Tactic.Common
import Mathlib.Data.List.Nodup
import Mathlib.Data.List.Induction
import Verif.SasJson
import Verif.Props.Containers
/-! C88: the JSON document of a SAS+ task. -/
namespace Tarski

/-! ### Specification: how a planner reads the document -/

/-- The value that a number stands for, for a variable of the given type: an object, or the integer itself. -/
def readValue (doc : JsonDoc) (type : String) : JVal → Option String
  | .num n => if type = "object" then (if n < 0 then none else doc.objects[n.toNat]?) else some (toString n)
  | .text s => some s

/-- A transition: the names of the action and of the variable, and the values before and after. -/
def readTrans (doc : JsonDoc) (e : Nat × Nat × JVal × JVal) : Option (String × String × String × String) :=
  match doc.actions[e.1]?, doc.vars[e.2.1]? with
  | some a, some (x, type) => match readValue doc type e.2.2.1, readValue doc type e.2.2.2 with
    | some v, some w => some (a, x, v, w)
    | _, _ => none
  | _, _ => none

/-- A pair of the initial state or the goal. -/
def readPair (doc : JsonDoc) (e : Nat × JVal) : Option (String × String) :=
  match doc.vars[e.1]? with
  | some (x, type) => match readValue doc type e.2 with
    | some v => some (x, v)
    | none => none
  | none => none

/-- The text of a value. -/
def valueText : SasValue → String
  | .term (.const n _) => n.render
  | .term _ => ""
  | .int n => toString n

/-- The functions of all variables of the task have `object` as codomain, and the values of the initial state and the goal
are objects. -/
structure ObjectTask (cod : String → String) (actions : List SasAction) (init goal : List (Term × SasValue)) : Prop where
  vars : ∀ x ∈ jsonTerms actions init goal, ∃ f ts, x = .app f ts ∧ cod f = "object"
  values : ∀ p ∈ init ++ goal, ∃ t, p.2 = .term t

/-- The objects are listed once each, and none is an integer. -/
structure PlainObjects (objects : List Const) : Prop where
  nodup : objects.Nodup
  noInt : ∀ o ∈ objects, o.sort ≠ "Integer"

/-! ### Proof -/

theorem indexNew_eq (xs : List Term) (X : SymIndex Term) : indexNew xs X = X.addAll xs := by
  induction xs generalizing X with
  | nil => rfl
  | cons x xs ih =>
    simp only [indexNew, SymIndex.addAll, List.foldl_cons] at ih ⊢
    rw [ih]
    congr 1
    unfold SymIndex.add
    split <;> rfl

theorem index_iff (xs : List Term) (x : Term) (i : Nat) :
    (indexNew xs SymIndex.empty).getIndex x = .ok i ↔ (firstOccurrences xs)[i]? = some x := by
  rw [indexNew_eq]
  have h := siInv_addAll xs
  rw [SymIndex.getIndex, h.data, h.objs]
  have := dlookup_enum (fun t : Term => t) (firstOccurrences xs) (by simpa using firstOccurrences_nodup xs) 0 i x
  simp only [Nat.zero_le, Nat.sub_zero, true_and, exists_eq_right] at this
  rw [← this]
  cases dlookup ((enumFrom 0 (firstOccurrences xs)).map fun p => (p.2, p.1)) x <;> simp

theorem index_exists (xs : List Term) (x : Term) : (∃ i, (indexNew xs SymIndex.empty).getIndex x = .ok i) ↔ x ∈ xs := by
  simp only [index_iff]
  rw [← mem_firstOccurrences, List.mem_iff_getElem?]

theorem index_objects (xs : List Term) : (indexNew xs SymIndex.empty).objects = firstOccurrences xs := by
  rw [indexNew_eq]; exact (siInv_addAll xs).objs

theorem firstOccurrences_of_nodup {α} [DecidableEq α] (l : List α) (h : l.Nodup) : firstOccurrences l = l := by
  induction l using List.reverseRecOn with
  | nil => simp [firstOccurrences]
  | append_singleton l a ih =>
    rw [List.nodup_append] at h
    rw [firstOccurrences_snoc, ih h.1, if_neg]
    intro ha
    exact h.2.2 a ha a (by simp) rfl

theorem jsonObjects_plain {objects : List Const} (h : PlainObjects objects) :
    jsonObjects objects = objects.map (fun o => .const o.name o.sort) ∧ firstOccurrences (jsonObjects objects) = jsonObjects objects := by
  have e : jsonObjects objects = objects.map (fun o => .const o.name o.sort) := by
    rw [jsonObjects, List.filter_eq_self.2]
    intro o ho
    simpa using h.noInt o ho
  refine ⟨e, firstOccurrences_of_nodup _ ?_⟩
  rw [e]
  refine List.Nodup.map ?_ h.nodup
  rintro ⟨n, s⟩ ⟨n', s'⟩ e
  simp only [Term.const.injEq] at e
  simp [e.1, e.2]

theorem jsonConcat_map {α β γ} (f : α → Except Err (List β)) (g : β → γ) (h : α → List γ) (l : List α) (r : List β)
    (hr : jsonConcat f l = .ok r) (hf : ∀ a ∈ l, ∀ bs, f a = .ok bs → bs.map g = h a) : r.map g = l.flatMap h := by
  induction l generalizing r with
  | nil => cases hr; rfl
  | cons a l ih =>
    simp only [jsonConcat] at hr
    cases ha : f a with
    | error e => simp [ha] at hr
    | ok bs =>
      simp only [ha] at hr
      cases hl : jsonConcat f l with
      | error e => simp [hl] at hr
      | ok cs =>
        simp only [hl, Except.ok.injEq] at hr
        subst hr
        rw [List.map_append, hf a (by simp) bs ha, ih cs hl fun a ha => hf a (by simp [ha])]
        simp

theorem jsonConcat_iff {α β} (f : α → Except Err (List β)) (l : List α) :
    (∃ r, jsonConcat f l = .ok r) ↔ ∀ a ∈ l, ∃ bs, f a = .ok bs := by
  induction l with
  | nil => simp [jsonConcat]
  | cons a l ih =>
    simp only [jsonConcat, List.forall_mem_cons, ← ih]
    cases f a with
    | error e => simp
    | ok bs => cases jsonConcat f l <;> simp

theorem flatMap_single {α β} (g : α → β) (l : List α) : l.flatMap (fun a => [g a]) = l.map g := by
  induction l with
  | nil => rfl
  | cons a l ih => simp [ih]

theorem mem_enumFrom {α} (l : List α) (n k : Nat) (a : α) (h : (k, a) ∈ enumFrom n l) : n ≤ k ∧ l[k - n]? = some a := by
  induction l generalizing n with
  | nil => simp [enumFrom] at h
  | cons b l ih =>
    simp only [enumFrom, List.mem_cons, Prod.mk.injEq] at h
    rcases h with ⟨rfl, rfl⟩ | h
    · simp
    · obtain ⟨h1, h2⟩ := ih (n + 1) h
      refine ⟨by omega, ?_⟩
      rw [show k - n = (k - (n + 1)) + 1 by omega, List.getElem?_cons_succ]
      exact h2

theorem flatMap_enum {α β} (l : List α) (n : Nat) (f : α → List β) : (enumFrom n l).flatMap (fun p => f p.2) = l.flatMap f := by
  induction l generalizing n with
  | nil => rfl
  | cons a l ih => simp [enumFrom, ih]

/-- What the document consists of. -/
theorem dumpJson_ok {str cod domains ln nm actions init goal objects doc}
    (h : dumpJson str cod domains ln nm actions init goal objects = .ok doc) :
    doc.objects = objects.map (fun o => o.name.render) ∧
    doc.vars = (firstOccurrences (jsonTerms actions init goal)).map (fun x => (str x, "object")) ∧
    doc.actions = actions.map jsonActionName ∧
    jsonConcat (fun ka => jsonConcat (transEntry cod (indexNew (jsonTerms actions init goal) SymIndex.empty)
      (indexNew (jsonObjects objects) SymIndex.empty) ka.1) ka.2.trans) (enumFrom 0 actions) = .ok doc.trans ∧
    jsonConcat (pairEntry (indexNew (jsonTerms actions init goal) SymIndex.empty)
      (indexNew (jsonObjects objects) SymIndex.empty)) init = .ok doc.init ∧
    jsonConcat (pairEntry (indexNew (jsonTerms actions init goal) SymIndex.empty)
      (indexNew (jsonObjects objects) SymIndex.empty)) goal = .ok doc.goal := by
  unfold dumpJson at h
  dsimp only at h
  split at h
  · cases h
  · split at h
    · cases h
    · rename_i ht
      split at h
      · cases h
      · rename_i hi
        split at h
        · cases h
        · rename_i hg
          cases h
          exact ⟨rfl, by rw [index_objects], rfl, ht, hi, hg⟩

theorem read_object {objects : List Const} (hp : PlainObjects objects) {doc : JsonDoc}
    (hd : doc.objects = objects.map (fun o => o.name.render)) {v : Term} {i : Nat}
    (h : (indexNew (jsonObjects objects) SymIndex.empty).getIndex v = .ok i) :
    readValue doc "object" (.num i) = some (valueText (.term v)) := by
  rw [index_iff, (jsonObjects_plain hp).2, (jsonObjects_plain hp).1, List.getElem?_map, Option.map_eq_some_iff] at h
  obtain ⟨o, ho, rfl⟩ := h
  simp [readValue, hd, ho, valueText, show ¬ ((i : Int) < 0) by omega]

theorem read_var {ts : List Term} {str : Term → String} {doc : JsonDoc}
    (hd : doc.vars = (firstOccurrences ts).map (fun x => (str x, "object"))) {x : Term} {i : Nat}
    (h : (indexNew ts SymIndex.empty).getIndex x = .ok i) : doc.vars[i]? = some (str x, "object") := by
  rw [index_iff] at h
  simp [hd, h]

/-! ### Theorems -/

/-- C88: the variables of the document are the terms of the transitions, the initial state and the goal, once each. -/
theorem C88_vars {str cod domains ln nm actions init goal objects doc}
    (h : dumpJson str cod domains ln nm actions init goal objects = .ok doc) :
    (∀ n, n ∈ doc.vars.map Prod.fst ↔ ∃ x ∈ jsonTerms actions init goal, str x = n) ∧
    ((∀ x y, str x = str y → x = y) → (doc.vars.map Prod.fst).Nodup) := by
  rw [(dumpJson_ok h).2.1]
  refine ⟨fun n => ?_, fun hs => ?_⟩
  · simp [mem_firstOccurrences]
  · rw [List.map_map]
    exact List.Nodup.map (fun x y e => hs x y e) (firstOccurrences_nodup _)

/-- C88: a planner that reads the document gets back the transitions of all actions, in order, the initial state and the goal.
Proved for tasks all of whose variables have the codomain `object`, and with the objects listed once each, without
integers. -/
theorem C88_reads_partial {str cod domains ln nm actions init goal objects doc}
    (h : dumpJson str cod domains ln nm actions init goal objects = .ok doc)
    (ht : ObjectTask cod actions init goal) (hp : PlainObjects objects) :
    doc.trans.map (readTrans doc) = actions.flatMap (fun a => a.trans.map fun t =>
      some (jsonActionName a, str t.1, valueText (.term t.2.1), valueText (.term t.2.2))) ∧
    doc.init.map (readPair doc) = init.map (fun p => some (str p.1, valueText p.2)) ∧
    doc.goal.map (readPair doc) = goal.map (fun p => some (str p.1, valueText p.2)) := by
  obtain ⟨h1, h2, h3, h4, h5, h6⟩ := dumpJson_ok h
  have pair : ∀ l r, (∀ p ∈ l, p ∈ init ++ goal) → jsonConcat (pairEntry (indexNew (jsonTerms actions init goal) SymIndex.empty)
      (indexNew (jsonObjects objects) SymIndex.empty)) l = .ok r →
      r.map (readPair doc) = l.map (fun p => some (str p.1, valueText p.2)) := by
    intro l r hl hr
    rw [jsonConcat_map _ (readPair doc) (fun p => [some (str p.1, valueText p.2)]) l r hr, flatMap_single]
    intro p hpl bs hbs
    obtain ⟨t, e⟩ := ht.values p (hl p hpl)
    unfold pairEntry at hbs
    rw [e] at hbs
    split at hbs
    · cases hbs
    · rename_i hc; cases hc
    · rename_i x v hx hc
      cases hc
      split at hbs
      · cases hbs
      · rename_i i hi
        cases hbs
        simp [readPair, read_var h2 hx, read_object hp h1 hi, e]
  refine ⟨?_, pair init _ (fun p hp => by simp [hp]) h5, pair goal _ (fun p hp => by simp [hp]) h6⟩
  rw [jsonConcat_map _ (readTrans doc) (fun ka => ka.2.trans.map fun t =>
      some (jsonActionName ka.2, str t.1, valueText (.term t.2.1), valueText (.term t.2.2))) _ _ h4]
  · exact flatMap_enum actions 0 fun a => a.trans.map fun t =>
      some (jsonActionName a, str t.1, valueText (.term t.2.1), valueText (.term t.2.2))
  · rintro ⟨k, a⟩ hka bs hbs
    obtain ⟨-, hk⟩ := mem_enumFrom actions 0 k a hka
    have hact : doc.actions[k]? = some (jsonActionName a) := by rw [h3]; simpa using congrArg (Option.map jsonActionName) hk
    have ha : a ∈ actions := List.mem_of_getElem? hk
    rw [jsonConcat_map _ (readTrans doc) (fun t => [some (jsonActionName a, str t.1, valueText (.term t.2.1), valueText (.term t.2.2))])
      a.trans bs hbs]
    · exact flatMap_single _ _
    · rintro ⟨x, v, w⟩ htr cs hcs
      obtain ⟨f, ts, e, hc⟩ := ht.vars x (by
        simp only [jsonTerms, List.mem_append, List.mem_flatMap, List.mem_map]
        exact .inl (.inl ⟨a, ha, (x, v, w), htr, rfl⟩))
      unfold transEntry at hcs
      simp only [e, termCodomain, hc, if_true] at hcs
      split at hcs
      · rename_i i j l hi hj hl
        rw [← e] at hi
        cases hcs
        simp [readTrans, hact, read_var h2 hi, read_object hp h1 hj, read_object hp h1 hl]
      all_goals cases hcs

/-- C88: the pairs of the initial state and of the goal are those of the task, in order: each names its variable, and an
integer is written as itself. No restrictions on the task. -/
theorem C88_pairs {str cod domains ln nm actions init goal objects doc}
    (h : dumpJson str cod domains ln nm actions init goal objects = .ok doc) :
    doc.init.map (fun e => (doc.vars[e.1]?).map Prod.fst) = init.map (fun p => some (str p.1)) ∧
    doc.goal.map (fun e => (doc.vars[e.1]?).map Prod.fst) = goal.map (fun p => some (str p.1)) ∧
    (∀ (i : Nat) (x : Term) (n : Int), init[i]? = some (x, SasValue.int n) → ∃ k, doc.init[i]? = some (k, JVal.num n)) ∧
    ∀ (i : Nat) (x : Term) (n : Int), goal[i]? = some (x, SasValue.int n) → ∃ k, doc.goal[i]? = some (k, JVal.num n) := by
  obtain ⟨h1, h2, h3, h4, h5, h6⟩ := dumpJson_ok h
  have pair : ∀ l r, jsonConcat (pairEntry (indexNew (jsonTerms actions init goal) SymIndex.empty)
      (indexNew (jsonObjects objects) SymIndex.empty)) l = .ok r →
      r.map (fun e => (doc.vars[e.1]?).map Prod.fst) = l.map (fun p => some (str p.1)) ∧
      ∀ (i : Nat) (x : Term) (n : Int), l[i]? = some (x, SasValue.int n) → ∃ k, r[i]? = some (k, JVal.num n) := by
    intro l
    induction l with
    | nil => intro r hr; cases hr; simp
    | cons p l ih =>
      intro r hr
      simp only [jsonConcat] at hr
      split at hr
      · cases hr
      · rename_i bs hb
        split at hr
        · cases hr
        · rename_i cs hc
          cases hr
          obtain ⟨i1, i2⟩ := ih cs hc
          have : ∃ i v, bs = [(i, v)] ∧ doc.vars[i]? = some (str p.1, "object") ∧ ∀ n, p.2 = .int n → v = .num n := by
            unfold pairEntry at hb
            split at hb
            · cases hb
            · rename_i i n hx e
              cases hb
              exact ⟨_, _, rfl, read_var h2 hx, fun m hm => by rw [e] at hm; cases hm; rfl⟩
            · rename_i i t hx e
              split at hb
              · cases hb
              · cases hb
                exact ⟨_, _, rfl, read_var h2 hx, fun m hm => by rw [e] at hm; cases hm⟩
          obtain ⟨i, v, rfl, e1, e2⟩ := this
          refine ⟨by simp [i1, e1], fun j x n hj => ?_⟩
          cases j with
          | zero =>
            simp only [List.getElem?_cons_zero, Option.some.injEq] at hj
            exact ⟨i, by simp [e2 n (by rw [hj])]⟩
          | succ j => simpa using i2 j x n (by simpa using hj)
  exact ⟨(pair init _ h5).1, (pair goal _ h6).1, (pair init _ h5).2, (pair goal _ h6).2⟩

/-- C88: on such tasks the writer succeeds exactly when all values are declared objects. -/
theorem C88_succeeds {str cod domains ln nm actions init goal objects} (ht : ObjectTask cod actions init goal)
    (hp : PlainObjects objects) :
    (∃ doc, dumpJson str cod domains ln nm actions init goal objects = .ok doc) ↔
      (∀ a ∈ actions, ∀ t ∈ a.trans, (∃ o ∈ objects, t.2.1 = .const o.name o.sort) ∧ ∃ o ∈ objects, t.2.2 = .const o.name o.sort) ∧
      ∀ p ∈ init ++ goal, ∃ o ∈ objects, p.2 = .term (.const o.name o.sort) := by
  obtain ⟨X, hX⟩ : ∃ X, X = indexNew (jsonTerms actions init goal) SymIndex.empty := ⟨_, rfl⟩
  obtain ⟨D, hD⟩ : ∃ D, D = indexNew (jsonObjects objects) SymIndex.empty := ⟨_, rfl⟩
  have hDi : ∀ v, (∃ i, D.getIndex v = .ok i) ↔ ∃ o ∈ objects, v = .const o.name o.sort := by
    intro v
    rw [hD, index_exists, (jsonObjects_plain hp).1]
    simp [eq_comm]
  have hXi : ∀ x ∈ jsonTerms actions init goal, ∃ i, X.getIndex x = .ok i := by
    intro x hx; rw [hX, index_exists]; exact hx
  have hchk : checkVars cod domains X.objects = .ok () := by
    rw [hX, index_objects]
    have : ∀ l : List Term, (∀ x ∈ l, ∃ f ts, x = .app f ts ∧ cod f = "object") → checkVars cod domains l = .ok () := by
      intro l
      induction l with
      | nil => intro _; rfl
      | cons x l ih =>
        intro hl
        obtain ⟨f, ts, rfl, hc⟩ := hl x (by simp)
        simp only [checkVars, termCodomain, hc, if_true]
        exact ih fun y hy => hl y (by simp [hy])
    exact this _ fun x hx => ht.vars x ((mem_firstOccurrences _ _).1 hx)
  have htrans : (∃ r, jsonConcat (fun ka => jsonConcat (transEntry cod X D ka.1) ka.2.trans) (enumFrom 0 actions) = .ok r) ↔
      ∀ a ∈ actions, ∀ t ∈ a.trans, (∃ o ∈ objects, t.2.1 = .const o.name o.sort) ∧ ∃ o ∈ objects, t.2.2 = .const o.name o.sort := by
    rw [jsonConcat_iff]
    simp only [jsonConcat_iff]
    have one : ∀ a ∈ actions, ∀ t ∈ a.trans, ∀ k, (∃ bs, transEntry cod X D k t = .ok bs) ↔
        (∃ o ∈ objects, t.2.1 = .const o.name o.sort) ∧ ∃ o ∈ objects, t.2.2 = .const o.name o.sort := by
      rintro a ha ⟨x, v, w⟩ htr k
      have hm : x ∈ jsonTerms actions init goal := by
        simp only [jsonTerms, List.mem_append, List.mem_flatMap, List.mem_map]
        exact .inl (.inl ⟨a, ha, (x, v, w), htr, rfl⟩)
      obtain ⟨f, ts, e, hc⟩ := ht.vars x hm
      obtain ⟨i, hi⟩ := hXi x hm
      rw [← hDi, ← hDi]
      have hcx : termCodomain cod x = .ok "object" := by rw [e]; simp [termCodomain, hc]
      simp only [transEntry, hcx, if_true, hi]
      cases hv : D.getIndex v <;> cases hw : D.getIndex w <;> simp
    constructor
    · intro hall a ha t htm
      obtain ⟨k, hk⟩ := List.mem_iff_getElem?.1 ha
      have : ∃ k, (k, a) ∈ enumFrom 0 actions := by
        have hs := enum_snd 0 actions
        rw [← hs] at ha
        obtain ⟨⟨k, a'⟩, h1, rfl⟩ := List.mem_map.1 ha
        exact ⟨k, h1⟩
      obtain ⟨k, hk⟩ := this
      exact (one a ha t htm k).1 (hall (k, a) hk t htm)
    · rintro hall ⟨k, a⟩ hka t htm
      have ha := List.mem_of_getElem? (mem_enumFrom actions 0 k a hka).2
      exact (one a ha t htm k).2 (hall a ha t htm)
  have hpair : ∀ l, (∀ p ∈ l, p ∈ init ++ goal) → ((∃ r, jsonConcat (pairEntry X D) l = .ok r) ↔
      ∀ p ∈ l, ∃ o ∈ objects, p.2 = .term (.const o.name o.sort)) := by
    intro l hl
    rw [jsonConcat_iff]
    refine forall₂_congr fun p hpl => ?_
    obtain ⟨t, e⟩ := ht.values p (hl p hpl)
    obtain ⟨i, hi⟩ := hXi p.1 (by
      have := hl p hpl
      simp only [jsonTerms, List.mem_append, List.mem_map] at this ⊢
      rcases this with h | h
      · exact .inl (.inr ⟨p, h, rfl⟩)
      · exact .inr ⟨p, h, rfl⟩)
    have : (∃ o ∈ objects, p.2 = .term (.const o.name o.sort)) ↔ ∃ i, D.getIndex t = .ok i := by
      rw [hDi, e]; simp
    rw [this]
    unfold pairEntry
    rw [hi, e]
    dsimp only
    cases D.getIndex t <;> simp
  have hall : (∃ doc, dumpJson str cod domains ln nm actions init goal objects = .ok doc) ↔
      (∃ r, jsonConcat (fun ka => jsonConcat (transEntry cod X D ka.1) ka.2.trans) (enumFrom 0 actions) = .ok r) ∧
      (∃ r, jsonConcat (pairEntry X D) init = .ok r) ∧ ∃ r, jsonConcat (pairEntry X D) goal = .ok r := by
    unfold dumpJson
    dsimp only
    rw [← hX, ← hD, hchk]
    dsimp only
    cases jsonConcat (fun ka => jsonConcat (transEntry cod X D ka.1) ka.2.trans) (enumFrom 0 actions) with
    | error e => simp
    | ok r => cases jsonConcat (pairEntry X D) init with
      | error e => simp
      | ok r => cases jsonConcat (pairEntry X D) goal <;> simp
  rw [hall, htrans, hpair init fun p hp => by simp [hp], hpair goal fun p hp => by simp [hp]]
  simp only [List.forall_mem_append]

/-! ### Refutations -/

/-- The claim without the restrictions: what is read back is what was written. -/
def C88_full : Prop := ∀ (str : Term → String) (cod : String → String) (domains : Term → Except Err (List Int)) (ln nm : String)
  (actions : List SasAction) (init goal : List (Term × SasValue)) (objects : List Const) (doc : JsonDoc),
  dumpJson str cod domains ln nm actions init goal objects = .ok doc →
  doc.trans.map (readTrans doc) = actions.flatMap (fun a => a.trans.map fun t =>
      some (jsonActionName a, str t.1, valueText (.term t.2.1), valueText (.term t.2.2))) ∧
  doc.init.map (readPair doc) = init.map (fun p => some (str p.1, valueText p.2))

def jsonStr : Term → String
  | .app f _ => f
  | _ => ""
def jsonCod : String → String := fun f => if f = "count" then "Integer" else if f = "loc" then "place" else "object"
def jsonObj (s : String) : Const := ⟨.str s, "object"⟩
def jsonOb (s : String) : Term := .const (.str s) "object"
def jsonBounds : Term → Except Err (List Int) := fun _ => .ok [0, 1, 2]

/-- An integer variable is declared with the type `object` and no bounds, so that the value 1 is read as the object with the
index 1. -/
theorem C88_integer_refuted : ¬ C88_full ∧
    (dumpJson jsonStr jsonCod jsonBounds "l" "i" [] [(.app "count" [], .int 1)] [] [jsonObj "a", jsonObj "b"]).map
      (fun doc => (doc.vars, doc.init.map (readPair doc))) = .ok ([("count", "object")], [some ("count", "b")]) := by
  refine ⟨fun h => ?_, rfl⟩
  have := (h jsonStr jsonCod jsonBounds "l" "i" [] [(.app "count" [], .int 1)] [] [jsonObj "a", jsonObj "b"] _ rfl).2
  exact absurd this (by decide)

/-- The transitions of a variable whose codomain is a proper sort of objects are left out. -/
theorem C88_subsort_refuted : ¬ C88_full ∧
    (dumpJson jsonStr jsonCod jsonBounds "l" "i" [⟨"go", [], [(.app "loc" [], jsonOb "a", jsonOb "b")]⟩] [] []
      [jsonObj "a", jsonObj "b"]).map (fun doc => doc.trans) = .ok [] := by
  refine ⟨fun h => ?_, rfl⟩
  have := (h jsonStr jsonCod jsonBounds "l" "i" [⟨"go", [], [(.app "loc" [], jsonOb "a", jsonOb "b")]⟩] [] []
      [jsonObj "a", jsonObj "b"] _ rfl).1
  exact absurd this (by decide)

/-- When an integer is among the objects, the list of objects in the document and the indices do not fit: the object with the
index 0 is the second of the list. -/
theorem C88_objects_refuted : ¬ C88_full ∧
    (dumpJson jsonStr jsonCod jsonBounds "l" "i" [] [(.app "on" [], .term (jsonOb "a"))] [] [⟨.int 7, "Integer"⟩, jsonObj "a"]).map
      (fun doc => (doc.objects, doc.init.map (readPair doc))) = .ok (["7", "a"], [some ("on", "7")]) := by
  refine ⟨fun h => ?_, rfl⟩
  have := (h jsonStr jsonCod jsonBounds "l" "i" [] [(.app "on" [], .term (jsonOb "a"))] [] [⟨.int 7, "Integer"⟩, jsonObj "a"] _ rfl).2
  exact absurd this (by decide)

/-! ### Concrete case -/

/-- Two actions over two variables. -/
def jsonActions : List SasAction :=
  [⟨"stack", [jsonObj "a", jsonObj "b"], [(.app "on" [jsonOb "a"], jsonOb "b", jsonOb "c"), (.app "clear" [], jsonOb "a", jsonOb "a")]⟩,
   ⟨"move", [], [(.app "on" [jsonOb "b"], jsonOb "c", jsonOb "a")]⟩]

example : ObjectTask jsonCod jsonActions [(.app "on" [jsonOb "a"], .term (jsonOb "b"))] [(.app "goal" [], .term (jsonOb "c"))] ∧
    PlainObjects [jsonObj "a", jsonObj "b", jsonObj "c"] := by
  refine ⟨⟨?_, ?_⟩, ⟨by decide, by decide⟩⟩
  · intro x hx
    simp [jsonTerms, jsonActions] at hx
    rcases hx with rfl | rfl | rfl | rfl | rfl <;> exact ⟨_, _, rfl, rfl⟩
  · intro p hp
    simp at hp
    rcases hp with rfl | rfl <;> exact ⟨_, rfl⟩

example : (dumpJson jsonStr jsonCod jsonBounds "l" "i" jsonActions [(.app "on" [jsonOb "a"], .term (jsonOb "b"))]
      [(.app "goal" [], .term (jsonOb "c"))] [jsonObj "a", jsonObj "b", jsonObj "c"]).map (fun doc => (doc.trans, doc.init, doc.goal)) =
    .ok ([(0, 0, .num 1, .num 2), (0, 1, .num 0, .num 0), (1, 2, .num 2, .num 0)], [(0, .num 1)], [(3, .num 2)]) := rfl

/-- An integer variable beside an object variable. -/
example : (dumpJson jsonStr jsonCod jsonBounds "l" "i" [] [(.app "on" [], .term (jsonOb "a")), (.app "count" [], .int 2)]
      [(.app "count" [], .int (-1))] [jsonObj "a"]).map (fun doc => (doc.vars.map Prod.fst, doc.init, doc.goal)) =
    .ok (["on", "count"], [(0, .num 0), (1, .num 2)], [(1, .num (-1))]) := rfl

end Tarski

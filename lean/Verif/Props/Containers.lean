import Verif.Containers
import Mathlib.Tactic.Common
/-! C23 (SymbolIndex), C42 (VariableBinding), C45 (intervals). -/
namespace Tarski

/-! ### Dictionaries -/

theorem dlookup_dinsert {α β} [DecidableEq α] (d : List (α × β)) (a x : α) (b : β) :
    dlookup (dinsert d a b) x = if a = x then some b else dlookup d x := by
  induction d with
  | nil => simp [dinsert, dlookup]
  | cons kv d ih =>
    obtain ⟨k, v⟩ := kv
    simp only [dinsert]
    by_cases h : k = a
    · subst h; simp only [if_true, dlookup]; split <;> rfl
    · simp only [h, if_false, dlookup, ih]
      by_cases h1 : k = x
      · subst h1; simp [Ne.symm h]
      · simp [h1]

theorem dinsert_new {α β} [DecidableEq α] (d : List (α × β)) (a : α) (b : β) (h : dlookup d a = none) :
    dinsert d a b = d ++ [(a, b)] := by
  induction d with
  | nil => rfl
  | cons kv d ih =>
    obtain ⟨k, v⟩ := kv
    simp only [dlookup] at h
    split at h
    · cases h
    · rename_i hk; simp [dinsert, hk, ih h]

theorem dlookup_none {α β} [DecidableEq α] (d : List (α × β)) (a : α) : dlookup d a = none ↔ a ∉ d.map (·.1) := by
  induction d with
  | nil => simp [dlookup]
  | cons kv d ih =>
    obtain ⟨k, v⟩ := kv
    simp only [dlookup, List.map_cons, List.mem_cons, not_or]
    by_cases h : k = a
    · simp [h]
    · simp [h, ih, Ne.symm h]

theorem dlookup_some {α β} [DecidableEq α] {d : List (α × β)} {a : α} {b : β} (h : dlookup d a = some b) : (a, b) ∈ d := by
  induction d with
  | nil => cases h
  | cons kv d ih =>
    obtain ⟨k, v⟩ := kv
    simp only [dlookup] at h
    split at h
    · rename_i hk; subst hk; cases h; simp
    · exact List.mem_cons_of_mem _ (ih h)

theorem pyGet_nat {α} (l : List α) (i : Nat) (x : α) : pyGet l (i : Int) = .ok x ↔ l[i]? = some x := by
  unfold pyGet
  have h1 : ¬ ((i : Int) < 0) := by omega
  simp only [h1, if_false, Int.toNat_natCast]
  cases l[i]? <;> simp

/-! ### C23 -/

/-- First occurrences, in order: the specification of the stored objects. -/
def firstOccurrences {α} [DecidableEq α] : List α → List α
  | [] => []
  | a :: l => a :: (firstOccurrences l).filter (· ≠ a)

theorem nodup_filter {α} (p : α → Bool) {l : List α} (h : l.Nodup) : (l.filter p).Nodup :=
  List.filter_sublist.nodup h

theorem firstOccurrences_nodup {α} [DecidableEq α] (l : List α) : (firstOccurrences l).Nodup := by
  induction l with
  | nil => simp [firstOccurrences]
  | cons a l ih =>
    simp only [firstOccurrences, List.nodup_cons]
    exact ⟨by simp, nodup_filter _ ih⟩

theorem mem_firstOccurrences {α} [DecidableEq α] (l : List α) (x : α) : x ∈ firstOccurrences l ↔ x ∈ l := by
  induction l with
  | nil => simp [firstOccurrences]
  | cons a l ih =>
    simp only [firstOccurrences, List.mem_cons, List.mem_filter, ih, decide_eq_true_eq, ne_eq]
    by_cases h : x = a <;> simp [h]

theorem firstOccurrences_snoc {α} [DecidableEq α] (l : List α) (x : α) :
    firstOccurrences (l ++ [x]) = if x ∈ l then firstOccurrences l else firstOccurrences l ++ [x] := by
  induction l with
  | nil => simp [firstOccurrences]
  | cons a l ih =>
    simp only [List.cons_append, firstOccurrences, ih, List.mem_cons]
    by_cases h1 : x ∈ l
    · simp [h1]
    · by_cases h2 : x = a
      · subst h2; simp [h1]
      · simp [h1, h2, List.filter_append]

theorem enumFrom_append {α} (n : Nat) (l m : List α) : enumFrom n (l ++ m) = enumFrom n l ++ enumFrom (n + l.length) m := by
  induction l generalizing n with
  | nil => simp [enumFrom]
  | cons a l ih =>
    simp only [List.cons_append, enumFrom, ih, List.length_cons]
    rw [show n + 1 + l.length = n + (l.length + 1) by omega]

/-- Representation invariant: the dictionary pairs the objects with their positions. -/
theorem dlookup_enum {α β} [DecidableEq β] (f : α → β) (l : List α) (hn : (l.map f).Nodup) (n i : Nat) (b : β) :
    dlookup ((enumFrom n l).map (fun p => (f p.2, p.1))) b = some i ↔ ∃ a, n ≤ i ∧ l[i - n]? = some a ∧ f a = b := by
  induction l generalizing n with
  | nil => simp [enumFrom, dlookup]
  | cons a l ih =>
    simp only [List.map_cons, List.nodup_cons] at hn
    simp only [enumFrom, List.map_cons, dlookup]
    split
    · rename_i h
      constructor
      · intro h'; cases h'; exact ⟨a, Nat.le_refl _, by simp, h⟩
      · rintro ⟨a', h1, h2, h3⟩
        by_cases hi : i = n
        · rw [hi]
        · exfalso
          have : i - n = (i - n - 1) + 1 := by omega
          rw [this, List.getElem?_cons_succ] at h2
          have := List.mem_of_getElem? h2
          exact hn.1 (List.mem_map.mpr ⟨a', this, by rw [h3, h]⟩)
    · rename_i h
      rw [ih hn.2]
      constructor
      · rintro ⟨a', h1, h2, h3⟩
        refine ⟨a', by omega, ?_, h3⟩
        have : i - n = (i - (n + 1)) + 1 := by omega
        rw [this, List.getElem?_cons_succ]; exact h2
      · rintro ⟨a', h1, h2, h3⟩
        by_cases hi : i = n
        · subst hi; simp at h2; subst h2; exact absurd h3 h
        · refine ⟨a', by omega, ?_, h3⟩
          have : i - n = (i - (n + 1)) + 1 := by omega
          rw [this, List.getElem?_cons_succ] at h2; exact h2

structure SIInv {α} [DecidableEq α] (s : SymIndex α) (os : List α) : Prop where
  objs : s.objects = firstOccurrences os
  data : s.data = (enumFrom 0 s.objects).map (fun p => (p.2, p.1))

theorem enum_length {α} (n : Nat) (l : List α) : (enumFrom n l).length = l.length := by
  induction l generalizing n with
  | nil => rfl
  | cons a l ih => simp [enumFrom, ih]

theorem enum_snd {α} (n : Nat) (l : List α) : (enumFrom n l).map (·.2) = l := by
  induction l generalizing n with
  | nil => rfl
  | cons a l ih => simp [enumFrom, ih]

theorem siInv_add {α} [DecidableEq α] {s : SymIndex α} {os : List α} (h : SIInv s os) (o : α) :
    SIInv (s.add o).1 (os ++ [o]) ∧ ((s.add o).2 = if o ∈ os then some .duplicateVariable else none) ∧
      (o ∈ os → (s.add o).1 = s) := by
  obtain ⟨h1, h2⟩ := h
  have hk : s.data.map (·.1) = s.objects := by
    rw [h2, List.map_map]
    exact enum_snd 0 s.objects
  have hmem : (dlookup s.data o).isSome ↔ o ∈ os := by
    rw [← mem_firstOccurrences, ← h1, ← hk]
    have := dlookup_none s.data o
    cases hd : dlookup s.data o with
    | none => simp [this.mp hd]
    | some i => rw [hd] at this; simp only [reduceCtorEq, false_iff, not_not] at this; simp [this]
  unfold SymIndex.add
  by_cases ho : o ∈ os
  · rw [if_pos (hmem.mpr ho)]
    refine ⟨⟨by rw [firstOccurrences_snoc, if_pos ho]; exact h1, h2⟩, by simp [ho], fun _ => rfl⟩
  · rw [if_neg (fun h => ho (hmem.mp h))]
    refine ⟨⟨by rw [firstOccurrences_snoc, if_neg ho]; simp [h1], ?_⟩, by simp [ho], fun h => absurd h ho⟩
    have hn : dlookup s.data o = none := by
      cases hd : dlookup s.data o with
      | none => rfl
      | some i => rw [hd] at hmem; exact absurd (hmem.mp rfl) ho
    simp only
    rw [dinsert_new _ _ _ hn, enumFrom_append, List.map_append, ← h2]
    congr 1
    simp [enumFrom, h2, enum_length]

theorem siInv_addAll {α} [DecidableEq α] (os : List α) : SIInv ((SymIndex.empty : SymIndex α).addAll os) os := by
  have key : ∀ (rest done : List α) (s : SymIndex α), SIInv s done → SIInv (s.addAll rest) (done ++ rest) := by
    intro rest
    induction rest with
    | nil => intro done s h; simpa [SymIndex.addAll] using h
    | cons o rest ih =>
      intro done s h
      have := ih (done ++ [o]) (s.add o).1 (siInv_add h o).1
      simpa [SymIndex.addAll, List.append_assoc] using this
  simpa using key os [] SymIndex.empty ⟨by simp [SymIndex.empty, firstOccurrences], by simp [SymIndex.empty, enumFrom]⟩

/-- C23: after any sequence of adds, the objects are stored once each in order of first insertion, and
`get_index` / `get_object` are inverse to each other and to positions in that order. -/
theorem C23_index_bijection {α} [DecidableEq α] (os : List α) (o : α) (i : Nat) :
    let s := (SymIndex.empty : SymIndex α).addAll os
    (s.getIndex o = .ok i ↔ (firstOccurrences os)[i]? = some o) ∧
    (s.getObject i = .ok o ↔ (firstOccurrences os)[i]? = some o) ∧
    (s.getIndex o = .error .keyError ↔ o ∉ os) ∧
    s.len = (firstOccurrences os).length := by
  have hi := siInv_addAll os
  obtain ⟨h1, h2⟩ := hi
  have hn : (((SymIndex.empty : SymIndex α).addAll os).objects.map id).Nodup := by
    rw [h1, List.map_id]; exact firstOccurrences_nodup os
  have hl := dlookup_enum id _ hn 0
  simp only [id] at hl
  have hl' : ∀ i b, dlookup ((SymIndex.empty : SymIndex α).addAll os).data b = some i ↔
      (firstOccurrences os)[i]? = some b := by
    intro i b
    rw [h2, hl, h1]; simp
  refine ⟨?_, ?_, ?_, ?_⟩
  · rw [← hl' i o]
    unfold SymIndex.getIndex
    cases dlookup ((SymIndex.empty : SymIndex α).addAll os).data o <;> simp
  · unfold SymIndex.getObject; rw [pyGet_nat, h1]
  · have : o ∉ os ↔ dlookup ((SymIndex.empty : SymIndex α).addAll os).data o = none := by
      rw [dlookup_none, h2, List.map_map]
      show _ ↔ o ∉ (enumFrom 0 _).map (·.2)
      rw [enum_snd, h1, mem_firstOccurrences]
    rw [this]
    unfold SymIndex.getIndex
    cases dlookup ((SymIndex.empty : SymIndex α).addAll os).data o <;> simp
  · unfold SymIndex.len
    rw [h2, List.length_map, enum_length, h1]

/-- C23: a repeated add raises and changes nothing; a new object is accepted. -/
theorem C23_repeated_add {α} [DecidableEq α] (os : List α) (o : α) :
    let s := (SymIndex.empty : SymIndex α).addAll os
    (o ∈ os → s.add o = (s, some .duplicateVariable)) ∧ (o ∉ os → (s.add o).2 = none) := by
  obtain ⟨_, h2, h3⟩ := siInv_add (siInv_addAll os) o
  refine ⟨fun h => ?_, fun h => by rw [h2, if_neg h]⟩
  rw [if_pos h] at h2
  exact Prod.ext (h3 h) h2

example : ((SymIndex.empty : SymIndex String).addAll ["a", "b", "a", "c"]).getIndex "c" = .ok 2 := by
  exact (C23_index_bijection ["a", "b", "a", "c"] "c" 2).1.mpr (by decide)

/-! ### C42 -/

structure VBInv (b : VBinding) (vs : List Var) : Prop where
  nodup : (vs.map Var.sym).Nodup
  values : b.values = vs
  vars : b.variables = vs.map (fun v => (v.sym, v))
  index : b.index = (enumFrom 0 vs).map (fun p => (p.2.sym, p.1))

theorem dictOf_nodup {α β} [DecidableEq α] (l : List (α × β)) (h : (l.map (·.1)).Nodup) : dictOf l = l := by
  have key : ∀ (l d : List (α × β)), ((d ++ l).map (·.1)).Nodup → l.foldl (fun d kv => dinsert d kv.1 kv.2) d = d ++ l := by
    intro l
    induction l with
    | nil => intro d _; simp
    | cons kv l ih =>
      intro d hd
      have hn : dlookup d kv.1 = none := by
        rw [dlookup_none]
        intro hm
        rw [List.map_append, List.map_cons, List.nodup_append] at hd
        exact hd.2.2 _ hm _ (by simp) rfl
      simp only [List.foldl_cons]
      rw [dinsert_new _ _ _ hn]
      have := ih (d ++ [(kv.1, kv.2)]) (by simpa [List.append_assoc] using hd)
      simpa [List.append_assoc] using this
  simpa [dictOf] using key l [] (by simpa using h)

theorem vbInv_ofList (vs : List Var) (h : (vs.map Var.sym).Nodup) : VBInv (VBinding.ofList vs) vs := by
  refine ⟨h, rfl, ?_, ?_⟩
  · simp only [VBinding.ofList]
    exact dictOf_nodup _ (by simpa [List.map_map, Function.comp_def] using h)
  · simp only [VBinding.ofList]
    apply dictOf_nodup
    rw [List.map_map]
    have : ((enumFrom 0 vs).map ((fun x => x.1) ∘ fun p => (p.2.sym, p.1))) = vs.map Var.sym := by
      have := congrArg (List.map Var.sym) (enum_snd 0 vs)
      rw [List.map_map] at this
      exact this
    rw [this]; exact h

theorem vb_lookup {b : VBinding} {vs} (h : VBInv b vs) (n : String) :
    ((dlookup b.variables n).isSome ↔ n ∈ vs.map Var.sym) := by
  have := dlookup_none b.variables n
  rw [h.vars, List.map_map] at this
  have hk : (vs.map ((fun x => x.1) ∘ fun v => (v.sym, v))) = vs.map Var.sym := rfl
  rw [hk, ← h.vars] at this
  cases hd : dlookup b.variables n with
  | none => simp [this.mp hd]
  | some i => rw [hd] at this; simp only [reduceCtorEq, false_iff, not_not] at this; simp [this]

theorem vbInv_add {b : VBinding} {vs} (h : VBInv b vs) (v : Var) :
    (v.sym ∈ vs.map Var.sym → b.add v = (b, some .duplicateVariable)) ∧
    (v.sym ∉ vs.map Var.sym → (b.add v).2 = none ∧ VBInv (b.add v).1 (vs ++ [v])) := by
  have hl := vb_lookup h v.sym
  constructor
  · intro hm; unfold VBinding.add; rw [if_pos (hl.mpr hm)]
  · intro hm
    unfold VBinding.add
    rw [if_neg (fun h => hm (hl.mp h))]
    have hn1 : dlookup b.variables v.sym = none := by
      cases hd : dlookup b.variables v.sym with
      | none => rfl
      | some i => rw [hd] at hl; exact absurd (hl.mp rfl) hm
    have hn2 : dlookup b.index v.sym = none := by
      rw [dlookup_none, h.index, List.map_map]
      have : ((enumFrom 0 vs).map ((fun x => x.1) ∘ fun p => (p.2.sym, p.1))) = vs.map Var.sym := by
        have := congrArg (List.map Var.sym) (enum_snd 0 vs)
        rw [List.map_map] at this
        exact this
      rw [this]; exact hm
    refine ⟨rfl, ?_, ?_, ?_, ?_⟩
    · rw [List.map_append, List.map_cons, List.map_nil, List.nodup_append]
      refine ⟨h.nodup, by simp, ?_⟩
      intro a ha b hb
      simp only [List.mem_singleton] at hb
      rintro rfl; subst hb; exact hm ha
    · simp [h.values]
    · simp only
      rw [dinsert_new _ _ _ hn1, h.vars]; simp
    · simp only
      rw [dinsert_new _ _ _ hn2, h.index, enumFrom_append, List.map_append]
      simp [enumFrom, enum_length]

/-- The specification: a binding holds a list of variables with distinct names. A duplicate add keeps the list. -/
def addVars (vs : List Var) : List Var → List Var
  | [] => vs
  | v :: rest => if v.sym ∈ vs.map Var.sym then addVars vs rest else addVars (vs ++ [v]) rest

theorem vbInv_addAll {b vs} (h : VBInv b vs) (ws : List Var) : VBInv (b.addAll ws) (addVars vs ws) := by
  induction ws generalizing b vs with
  | nil => exact h
  | cons w ws ih =>
    simp only [VBinding.addAll, List.foldl_cons, addVars]
    split
    · rename_i hm
      rw [(vbInv_add h w).1 hm]; exact ih h
    · rename_i hm
      exact ih ((vbInv_add h w).2 hm).2

/-- C42: after any history of adds starting from a binding with distinct names, `get`, `index`, `binding[i]`,
iteration order and `len` all describe one list of variables with distinct names. -/
theorem C42_binding (init adds : List Var) (hi : (init.map Var.sym).Nodup) :
    let b := (VBinding.ofList init).addAll adds
    let vs := addVars init adds
    (vs.map Var.sym).Nodup ∧ b.vars = vs ∧ b.len = vs.length ∧
    (∀ n v, b.get n = .ok v ↔ v ∈ vs ∧ v.sym = n) ∧
    (∀ n i, b.indexOf n = .ok i ↔ ∃ v, vs[i]? = some v ∧ v.sym = n) ∧
    (∀ (i : Nat) v, b.item i = .ok v ↔ vs[i]? = some v) ∧
    (∀ n, b.get n = .error .undefinedVariable ↔ n ∉ vs.map Var.sym) := by
  intro b vs
  have h : VBInv b vs := vbInv_addAll (vbInv_ofList init hi) adds
  have hv : b.vars = vs := by
    unfold VBinding.vars; rw [h.vars, List.map_map]; exact List.map_id _
  refine ⟨h.nodup, hv, by unfold VBinding.len; rw [h.vars, List.length_map], ?_, ?_, ?_, ?_⟩
  · intro n v
    have key : ∀ l : List Var, (l.map Var.sym).Nodup →
        (dlookup (l.map (fun v => (v.sym, v))) n = some v ↔ v ∈ l ∧ v.sym = n) := by
      intro l hl
      induction l with
      | nil => simp [dlookup]
      | cons w l ih =>
        simp only [List.map_cons, List.nodup_cons] at hl
        simp only [List.map_cons, dlookup]
        split
        · rename_i hw
          constructor
          · intro h; cases h; exact ⟨by simp, hw⟩
          · rintro ⟨h1, h2⟩
            rcases List.mem_cons.mp h1 with rfl | h1
            · rfl
            · exact absurd (List.mem_map.mpr ⟨v, h1, by rw [h2, hw]⟩) hl.1
        · rename_i hw
          rw [ih hl.2]
          constructor
          · rintro ⟨h1, h2⟩; exact ⟨List.mem_cons_of_mem _ h1, h2⟩
          · rintro ⟨h1, h2⟩
            rcases List.mem_cons.mp h1 with rfl | h1
            · exact absurd h2 hw
            · exact ⟨h1, h2⟩
    have := key vs h.nodup
    rw [← h.vars] at this
    rw [← this]
    unfold VBinding.get
    cases dlookup b.variables n <;> simp
  · intro n i
    have := dlookup_enum Var.sym vs h.nodup 0 i n
    rw [← h.index] at this
    simp only [Nat.zero_le, Nat.sub_zero, true_and] at this
    rw [← this]
    unfold VBinding.indexOf
    cases dlookup b.index n <;> simp
  · intro i v; unfold VBinding.item; rw [pyGet_nat, h.values]
  · intro n
    rw [← vb_lookup h n]
    unfold VBinding.get
    cases dlookup b.variables n <;> simp

/-- C42: a duplicate add raises and changes nothing, any other add succeeds. -/
theorem C42_duplicate (init adds : List Var) (hi : (init.map Var.sym).Nodup) (v : Var) :
    let b := (VBinding.ofList init).addAll adds
    (v.sym ∈ (addVars init adds).map Var.sym → b.add v = (b, some .duplicateVariable)) ∧
    (v.sym ∉ (addVars init adds).map Var.sym → (b.add v).2 = none) := by
  intro b
  have h : VBInv b (addVars init adds) := vbInv_addAll (vbInv_ofList init hi) adds
  exact ⟨(vbInv_add h v).1, fun hm => ((vbInv_add h v).2 hm).1⟩

/-- Why the starting binding has to be free of duplicates: the constructor does not check, and afterwards
`binding[index(name)]` is another variable than `get(name)`. -/
theorem C42_duplicate_init_refuted : ∃ (init : List Var) (v : Var) (i : Nat) (w : Var),
    let b := ((VBinding.ofList init).add v).1
    ((VBinding.ofList init).add v).2 = none ∧ b.get v.sym = .ok v ∧ b.indexOf v.sym = .ok i ∧ b.item i = .ok w ∧ w ≠ v := by
  refine ⟨[⟨"x", "s"⟩, ⟨"x", "s"⟩], ⟨"y", "s"⟩, 1, ⟨"x", "s"⟩, ?_⟩
  decide

example : (([⟨"x", "s"⟩, ⟨"y", "t"⟩] : List Var).map Var.sym).Nodup := by decide

/-! ### C45: interval sorts -/

theorem mem_pyRange (a b x : Int) : x ∈ pyRange a b ↔ a ≤ x ∧ x < b := by
  unfold pyRange
  simp only [List.mem_map, List.mem_range]
  constructor
  · rintro ⟨k, hk, rfl⟩; omega
  · rintro ⟨h1, h2⟩; exact ⟨(x - a).toNat, by omega, by omega⟩

theorem pyRange_nodup (a b : Int) : (pyRange a b).Nodup := by
  unfold pyRange
  rw [List.nodup_iff_pairwise_ne, List.pairwise_map]
  have : (List.range (b - a).toNat).Pairwise (· ≠ ·) := List.nodup_range
  exact this.imp (fun h => by omega)

/-- C45: a declared interval contains at least two values; bounds are accepted iff the lower one is smaller. -/
theorem C45_declare (p : IvSort) (lb ub : Int) :
    (∀ s, mkInterval p lb ub = .ok s ↔ lb < ub ∧ s = ⟨lb, ub, false⟩) ∧
    (mkInterval p lb ub = .error .language ↔ ub ≤ lb) := by
  unfold mkInterval
  constructor
  · intro s
    split
    · simp; omega
    · simp only [Except.ok.injEq]
      constructor
      · rintro rfl; exact ⟨by omega, rfl⟩
      · rintro ⟨_, rfl⟩; rfl
  · split <;> simp <;> omega

/-- C45: when the domain can be enumerated it lists exactly the values of the interval, each once, as many as
the cardinality says; `cast` accepts exactly the values contained. -/
theorem C45_domain (s : IvSort) (l : List Int) (h : s.domain = .ok l) :
    l.Nodup ∧ (∀ x, x ∈ l ↔ s.lb ≤ x ∧ x ≤ s.ub) ∧ (s.lb ≤ s.ub + 1 → (l.length : Int) = s.cardinality) ∧
    ∀ x, (s.cast x = .ok x ↔ x ∈ l) ∧ (s.contains x = true ↔ x ∈ l) := by
  unfold IvSort.domain at h
  split at h
  · cases h
  · cases h
    have hm : ∀ x, x ∈ pyRange s.lb (s.ub + 1) ↔ s.lb ≤ x ∧ x ≤ s.ub := by
      intro x; rw [mem_pyRange]; omega
    refine ⟨pyRange_nodup _ _, hm, ?_, ?_⟩
    · intro hb; simp [pyRange, IvSort.cardinality]; omega
    · intro x
      rw [hm]
      refine ⟨?_, by simp [IvSort.contains]⟩
      unfold IvSort.cast
      split
      · rename_i h; simp only [true_iff]; simpa [IvSort.contains] using h
      · rename_i h; simp only [reduceCtorEq, false_iff]; simpa [IvSort.contains] using h

/-- C45: enumeration fails exactly for builtin sorts and for more than 10000 values. -/
theorem C45_domain_fails (s : IvSort) : (∃ e, s.domain = .error e) ↔ s.builtin = true ∨ s.cardinality > 10000 := by
  unfold IvSort.domain IvSort.cardinality
  cases hb : s.builtin
  · by_cases h : s.ub - s.lb > 9999
    · simp [h]; omega
    · simp [h]; omega
  · simp

/-- C45 in full: every value of an interval is a value of its parent sort. -/
def C45_full : Prop :=
  (∀ x, theNaturals.contains x = true → theIntegers.contains x = true) ∧
  ∀ p lb ub s, mkInterval p lb ub = .ok s → ∀ x, s.contains x = true → p.contains x = true

/-- Naturals are declared as a subsort of the integers, but have larger values; and the bounds of a new interval are
not compared with those of its parent. -/
theorem C45_refuted : ¬ C45_full ∧ (theNaturals.contains (2 ^ 32 - 1) = true ∧ theIntegers.contains (2 ^ 32 - 1) = false) ∧
    ∃ s, mkInterval theNaturals (-5) 3 = .ok s ∧ s.contains (-1) = true ∧ theNaturals.contains (-1) = false := by
  have h1 : theNaturals.contains (2 ^ 32 - 1) = true ∧ theIntegers.contains (2 ^ 32 - 1) = false := by decide
  refine ⟨fun h => ?_, h1, ⟨-5, 3, false⟩, rfl, by decide, by decide⟩
  have := h.1 _ h1.1
  rw [h1.2] at this; cases this

/-- C45, the true part: values are values of the parent if the bounds are within those of the parent. -/
theorem C45_subsort_partial (p : IvSort) (lb ub : Int) (s : IvSort) (h : mkInterval p lb ub = .ok s)
    (h1 : p.lb ≤ lb) (h2 : ub ≤ p.ub) (x : Int) (hx : s.contains x = true) : p.contains x = true := by
  rw [(C45_declare p lb ub).1] at h
  obtain ⟨_, rfl⟩ := h
  simp only [IvSort.contains, Bool.and_eq_true, decide_eq_true_eq] at hx ⊢
  omega

example : ∃ s l, mkInterval theIntegers 3 7 = .ok s ∧ s.domain = .ok l ∧ l = [3, 4, 5, 6, 7] :=
  ⟨⟨3, 7, false⟩, _, rfl, rfl, by decide⟩

end Tarski

import Verif.Grounding
import Verif.QELemmas
import Verif.Props.Containers
import Verif.Props.Language
import Mathlib.Data.List.Nodup
import Mathlib.Data.List.Forall2
/-! C40: naive grounding enumerates exactly the well-typed tuples. -/
namespace Tarski

/-! ### Specification -/

/-- `c` is one of the objects of sort `s`. -/
def InDom {α} (dom : String → Except Err (List α)) (c : α) (s : String) : Prop := ∃ d, dom s = .ok d ∧ c ∈ d

/-- The number of objects of a sort. -/
def domSize {α} (dom : String → Except Err (List α)) (s : String) : Nat :=
  match dom s with
  | .ok d => d.length
  | .error _ => 0

/-- A tuple of objects matches a list of sorts. -/
abbrev WellSorted {α} (dom : String → Except Err (List α)) (t : List α) (sorts : List String) : Prop :=
  List.Forall₂ (InDom dom) t sorts

/-- The domains can be enumerated (no builtin or huge interval) and list every object once. -/
def GoodDoms {α} (dom : String → Except Err (List α)) (sorts : List String) : Prop :=
  ∀ s ∈ sorts, ∃ d, dom s = .ok d ∧ d.Nodup

/-! ### Products -/

theorem mem_cart {α} (ls : List (List α)) (t : List α) : t ∈ cart ls ↔ List.Forall₂ (fun c l => c ∈ l) t ls := by
  induction ls generalizing t with
  | nil => simp [cart]
  | cons l ls ih =>
    simp only [cart, List.mem_flatMap, List.mem_map]
    constructor
    · rintro ⟨x, hx, t', ht', rfl⟩
      exact .cons hx ((ih t').mp ht')
    · intro h
      cases h with
      | cons h1 h2 => exact ⟨_, h1, _, (ih _).mpr h2, rfl⟩

theorem cart_nodup {α} (ls : List (List α)) (h : ∀ l ∈ ls, l.Nodup) : (cart ls).Nodup := by
  induction ls with
  | nil => simp [cart]
  | cons l ls ih =>
    simp only [cart]
    refine List.nodup_flatMap.mpr ⟨?_, ?_⟩
    · intro x _
      exact (ih (fun l' hl' => h l' (by simp [hl']))).map (fun a b hab => by simpa using hab)
    · refine List.Pairwise.imp ?_ (h l (by simp))
      intro a b hab
      simp only [Function.onFun, List.Disjoint, List.mem_map]
      rintro _ ⟨t, _, rfl⟩ ⟨t', _, h2⟩
      simp only [List.cons.injEq] at h2
      exact hab h2.1.symm

/-! ### Domains -/

theorem sortDomains_ok {α} {dom : String → Except Err (List α)} {ss : List String} {ds} (h : sortDomains dom ss = .ok ds) :
    List.Forall₂ (fun s d => dom s = .ok d) ss ds := by
  induction ss generalizing ds with
  | nil => simp only [sortDomains, Except.ok.injEq] at h; subst h; exact .nil
  | cons s ss ih =>
    simp only [sortDomains] at h
    split at h
    · cases h
    · rename_i d hd
      split at h
      · cases h
      · rename_i ds' hds
        simp only [Except.ok.injEq] at h; subst h
        exact .cons hd (ih hds)

theorem sortDomains_total {α} {dom : String → Except Err (List α)} {ss : List String}
    (h : ∀ s ∈ ss, ∃ d, dom s = .ok d) : ∃ ds, sortDomains dom ss = .ok ds := by
  induction ss with
  | nil => exact ⟨[], rfl⟩
  | cons s ss ih =>
    obtain ⟨d, hd⟩ := h s (by simp)
    obtain ⟨ds, hds⟩ := ih (fun s' hs' => h s' (by simp [hs']))
    exact ⟨d :: ds, by simp [sortDomains, hd, hds]⟩

theorem forall2_inDom {α} {dom : String → Except Err (List α)} {ss : List String} {ds} (h : sortDomains dom ss = .ok ds)
    (t : List α) : List.Forall₂ (fun c l => c ∈ l) t ds ↔ WellSorted dom t ss := by
  have h' := sortDomains_ok h
  clear h
  induction h' generalizing t with
  | nil => constructor <;> (intro h; cases h; exact .nil)
  | cons h1 h2 ih =>
    constructor
    · intro h; cases h with
      | cons h3 h4 => exact .cons ⟨_, h1, h3⟩ ((ih _).mp h4)
    · intro h; cases h with
      | cons h3 h4 =>
        obtain ⟨d', hd', hc⟩ := h3
        rw [h1] at hd'; cases hd'
        exact .cons hc ((ih _).mpr h4)

theorem sortDomains_size {α} {dom : String → Except Err (List α)} {ss : List String} {ds} (h : sortDomains dom ss = .ok ds) :
    ds.map List.length = ss.map (domSize dom) := by
  have h' := sortDomains_ok h
  clear h
  induction h' with
  | nil => rfl
  | cons h1 _ ih => simp [domSize, h1, ih]

theorem sortDomains_nodup {α} {dom : String → Except Err (List α)} {ss : List String} {ds} (h : sortDomains dom ss = .ok ds)
    (hn : GoodDoms dom ss) : ∀ d ∈ ds, d.Nodup := by
  have h' := sortDomains_ok h
  clear h
  induction h' with
  | nil => simp
  | @cons s d _ _ h1 _ ih =>
    intro d' hd'
    simp only [List.mem_cons] at hd'
    rcases hd' with rfl | hd'
    · obtain ⟨e, he, hne⟩ := hn s (by simp)
      rw [h1] at he; cases he; exact hne
    · exact ih (fun s' hs' => hn s' (by simp [hs'])) d' hd'

/-- C40: the enumerated bindings of a signature are exactly the tuples of objects of the declared sorts; their number is
the product of the domain sizes; no tuple is repeated; and the enumeration succeeds iff every domain can be
enumerated. -/
theorem C40_tuples {α} (dom : String → Except Err (List α)) (sorts : List String) :
    ((∃ T, signatureBindings dom sorts = .ok T) ↔ ∀ s ∈ sorts, ∃ d, dom s = .ok d) ∧
    ∀ T, signatureBindings dom sorts = .ok T →
      (∀ t, t ∈ T ↔ WellSorted dom t sorts) ∧ T.length = (sorts.map (domSize dom)).prod ∧
      (GoodDoms dom sorts → T.Nodup) := by
  constructor
  · constructor
    · rintro ⟨T, h⟩ s hs
      unfold signatureBindings at h
      split at h
      · cases h
      · rename_i ds hds
        have := sortDomains_ok hds
        clear h hds
        induction this with
        | nil => simp at hs
        | cons h1 _ ih =>
          simp only [List.mem_cons] at hs
          rcases hs with rfl | hs
          · exact ⟨_, h1⟩
          · exact ih hs
    · intro h
      obtain ⟨ds, hds⟩ := sortDomains_total h
      exact ⟨cart ds, by simp [signatureBindings, hds]⟩
  · intro T h
    unfold signatureBindings at h
    split at h
    · cases h
    · rename_i ds hds
      simp only [Except.ok.injEq] at h; subst h
      refine ⟨fun t => by rw [mem_cart, forall2_inDom hds], ?_, fun hn => cart_nodup _ (sortDomains_nodup hds hn)⟩
      rw [cart_length, sortDomains_size hds]

/-- C40 for actions: the groundings stored for every action are exactly the well-sorted tuples for its parameters, each once. -/
theorem C40_actions {α} (dom : String → Except Err (List α)) (acts : List (String × List String)) :
    ((∃ G, groundActions dom acts = .ok G) ↔ ∀ a ∈ acts, ∀ s ∈ a.2, ∃ d, dom s = .ok d) ∧
    ∀ G, groundActions dom acts = .ok G →
      List.Forall₂ (fun a g => g.1 = a.1 ∧ (∀ t, t ∈ g.2 ↔ WellSorted dom t a.2) ∧
        g.2.length = (a.2.map (domSize dom)).prod ∧ (GoodDoms dom a.2 → g.2.Nodup)) acts G := by
  induction acts with
  | nil => exact ⟨⟨fun _ => by simp, fun _ => ⟨[], rfl⟩⟩, by intro G h; simp only [groundActions, Except.ok.injEq] at h; subst h; exact .nil⟩
  | cons a acts ih =>
    obtain ⟨n, ps⟩ := a
    obtain ⟨h1, h2⟩ := C40_tuples dom ps
    obtain ⟨i1, i2⟩ := ih
    constructor
    · simp only [List.forall_mem_cons, ← h1, ← i1, groundActions]
      constructor
      · rintro ⟨G, h⟩
        split at h
        · cases h
        · rename_i T hT
          split at h
          · cases h
          · rename_i G' hG; exact ⟨⟨T, hT⟩, ⟨G', hG⟩⟩
      · rintro ⟨⟨T, hT⟩, ⟨G', hG⟩⟩
        exact ⟨(n, T) :: G', by simp [hT, hG]⟩
    · intro G h
      simp only [groundActions] at h
      split at h
      · cases h
      · rename_i T hT
        split at h
        · cases h
        · rename_i G' hG
          simp only [Except.ok.injEq] at h; subst h
          exact .cons ⟨rfl, h2 T hT⟩ (i2 G' hG)

/-! ### State variables -/

theorem firstOccurrences_of_nodup {α} [DecidableEq α] {l : List α} (h : l.Nodup) : firstOccurrences l = l := by
  induction l with
  | nil => rfl
  | cons a l ih =>
    rw [List.nodup_cons] at h
    simp only [firstOccurrences, ih h.2, List.cons.injEq, true_and]
    rw [List.filter_eq_self]
    intro b hb
    simp only [ne_eq, decide_not, Bool.not_eq_eq_eq_not, Bool.not_true, decide_eq_false_iff_not]
    rintro rfl; exact h.1 hb

theorem addVarsRaising_cases {β} [DecidableEq β] (xs : List β) : ∀ (s : SymIndex β) (done : List β), SIInv s done → done.Nodup →
    (addVarsRaising s xs = .ok (s.addAll xs) ∧ SIInv (s.addAll xs) (done ++ xs) ∧ (done ++ xs).Nodup) ∨
    (addVarsRaising s xs = .error .duplicateVariable ∧ ¬ (done ++ xs).Nodup) := by
  induction xs with
  | nil => intro s done h hn; left; simpa [addVarsRaising, SymIndex.addAll] using ⟨h, hn⟩
  | cons x xs ih =>
    intro s done h hn
    obtain ⟨h1, h2, _⟩ := siInv_add h x
    by_cases hx : x ∈ done
    · right
      rw [if_pos hx] at h2
      have : s.add x = ((s.add x).1, some .duplicateVariable) := Prod.ext rfl h2
      refine ⟨by rw [addVarsRaising, this], ?_⟩
      intro hnd
      rw [List.nodup_append] at hnd
      exact hnd.2.2 x hx x (by simp) rfl
    · rw [if_neg hx] at h2
      have he : s.add x = ((s.add x).1, none) := Prod.ext rfl h2
      have hn' : (done ++ [x]).Nodup := by
        rw [List.nodup_append]
        refine ⟨hn, by simp, ?_⟩
        intro a ha b hb
        simp only [List.mem_singleton] at hb; subst hb
        rintro rfl; exact hx ha
      have := ih (s.add x).1 (done ++ [x]) h1 hn'
      have e1 : addVarsRaising s (x :: xs) = addVarsRaising (s.add x).1 xs := by
        rw [addVarsRaising, he]
      have e2 : s.addAll (x :: xs) = (s.add x).1.addAll xs := rfl
      have e3 : done ++ x :: xs = done ++ [x] ++ xs := by simp
      rw [e1, e2, e3]; exact this

theorem addVarsRaising_append {β} [DecidableEq β] (s : SymIndex β) (xs ys : List β) :
    addVarsRaising s (xs ++ ys) = match addVarsRaising s xs with
      | .error e => .error e
      | .ok s' => addVarsRaising s' ys := by
  induction xs generalizing s with
  | nil => rfl
  | cons x xs ih =>
    simp only [List.cons_append, addVarsRaising]
    split
    · rfl
    · exact ih _

theorem siInv_empty {β} [DecidableEq β] : SIInv (SymIndex.empty : SymIndex β) [] :=
  ⟨by simp [SymIndex.empty, firstOccurrences], by simp [SymIndex.empty, enumFrom]⟩

/-- What the caller sees of an index that was filled with a duplicate-free list. -/
def IndexesExactly {β} [DecidableEq β] (s : SymIndex β) (P : β → Prop) : Prop :=
  (∀ x, (∃ i, s.getIndex x = .ok i) ↔ P x) ∧ (∀ x (i : Nat), s.getIndex x = .ok i ↔ s.getObject i = .ok x) ∧
  ∀ i : Nat, (∃ x, s.getObject i = .ok x) ↔ i < s.len

theorem indexesExactly_of_nodup {β} [DecidableEq β] {xs : List β} (h : xs.Nodup) :
    IndexesExactly ((SymIndex.empty : SymIndex β).addAll xs) (· ∈ xs) ∧ ((SymIndex.empty : SymIndex β).addAll xs).len = xs.length := by
  have hf := firstOccurrences_of_nodup h
  have key := fun o i => C23_index_bijection xs o i
  simp only [hf] at key
  refine ⟨⟨?_, ?_, ?_⟩, ?_⟩
  · intro x
    constructor
    · rintro ⟨i, hi⟩
      exact List.mem_of_getElem? ((key x i).1.mp hi)
    · intro hx
      obtain ⟨i, hi⟩ := List.getElem?_of_mem hx
      exact ⟨i, (key x i).1.mpr hi⟩
  · intro x i; rw [(key x i).1, (key x i).2.1]
  · intro i
    constructor
    · rintro ⟨x, hx⟩
      rw [(key x i).2.1] at hx
      rw [(key x i).2.2.2]
      exact (List.getElem?_eq_some_iff.mp hx).1
    · intro hi
      cases xs with
      | nil => simp [SymIndex.addAll, SymIndex.empty, SymIndex.len] at hi
      | cons x0 xs =>
        rw [(key x0 i).2.2.2] at hi
        exact ⟨_, (key _ i).2.1.mpr (List.getElem?_eq_getElem hi)⟩
  · cases xs with
    | nil => rfl
    | cons x0 xs => exact (key x0 0).2.2.2

/-- All instantiations, in order of enumeration. -/
def allStateVars {α γ} (dom : String → Except Err (List α)) (sig : γ → List String) (symbols : List γ) : List (γ × List α) :=
  symbols.flatMap fun g => match signatureBindings dom (sig g) with
    | .ok bs => bs.map (fun b => (g, b))
    | .error _ => []

theorem groundSymbolsLoop_eq {α γ} [DecidableEq α] [DecidableEq γ] (dom : String → Except Err (List α)) (sig : γ → List String)
    (symbols : List γ) (h : ∀ g ∈ symbols, ∀ s ∈ sig g, ∃ d, dom s = .ok d) (s : SymIndex (γ × List α)) :
    groundSymbolsLoop dom sig s symbols = addVarsRaising s (allStateVars dom sig symbols) := by
  induction symbols generalizing s with
  | nil => rfl
  | cons g gs ih =>
    obtain ⟨T, hT⟩ := (C40_tuples dom (sig g)).1.mpr (h g (by simp))
    have e : allStateVars dom sig (g :: gs) = T.map (fun b => (g, b)) ++ allStateVars dom sig gs := by
      simp [allStateVars, hT]
    rw [e, addVarsRaising_append]
    simp only [groundSymbolsLoop, hT]
    cases addVarsRaising s (T.map (fun b => (g, b))) with
    | error e => rfl
    | ok s' => exact ih (fun g' hg' => h g' (by simp [hg'])) _

theorem mem_allStateVars {α γ} (dom : String → Except Err (List α)) (sig : γ → List String)
    (symbols : List γ) (h : ∀ g ∈ symbols, ∀ s ∈ sig g, ∃ d, dom s = .ok d) (x : γ × List α) :
    x ∈ allStateVars dom sig symbols ↔ x.1 ∈ symbols ∧ WellSorted dom x.2 (sig x.1) := by
  obtain ⟨g, t⟩ := x
  simp only [allStateVars, List.mem_flatMap]
  constructor
  · rintro ⟨g', hg', hx⟩
    obtain ⟨T, hT⟩ := (C40_tuples dom (sig g')).1.mpr (h g' hg')
    rw [hT] at hx
    simp only [List.mem_map, Prod.mk.injEq] at hx
    obtain ⟨b, hb, h1, h2⟩ := hx
    subst h1; subst h2
    exact ⟨hg', (((C40_tuples dom (sig g')).2 T hT).1 b).mp hb⟩
  · rintro ⟨hg, ht⟩
    obtain ⟨T, hT⟩ := (C40_tuples dom (sig g)).1.mpr (h g hg)
    refine ⟨g, hg, ?_⟩
    rw [hT]
    simp only [List.mem_map]
    exact ⟨t, (((C40_tuples dom (sig g)).2 T hT).1 t).mpr ht, rfl⟩

theorem allStateVars_nodup {α γ} (dom : String → Except Err (List α)) (sig : γ → List String)
    (symbols : List γ) (hs : symbols.Nodup) (h : ∀ g ∈ symbols, GoodDoms dom (sig g)) :
    (allStateVars dom sig symbols).Nodup := by
  unfold allStateVars
  refine List.nodup_flatMap.mpr ⟨?_, ?_⟩
  · intro g hg
    split
    · rename_i bs hbs
      exact (((C40_tuples dom (sig g)).2 bs hbs).2.2 (h g hg)).map (fun a b hab => by simpa using hab)
    · simp
  · refine List.Pairwise.imp ?_ hs
    intro a b hab x hx hy
    apply hab
    dsimp only at hx hy
    have h1 : x.1 = a := by
      split at hx
      · simp only [List.mem_map] at hx; obtain ⟨_, _, rfl⟩ := hx; rfl
      · simp at hx
    have h2 : x.1 = b := by
      split at hy
      · simp only [List.mem_map] at hy; obtain ⟨_, _, rfl⟩ := hy; rfl
      · simp at hy
    rw [← h1, h2]

theorem allStateVars_length {α γ} (dom : String → Except Err (List α)) (sig : γ → List String)
    (symbols : List γ) (h : ∀ g ∈ symbols, ∀ s ∈ sig g, ∃ d, dom s = .ok d) :
    (allStateVars dom sig symbols).length = (symbols.map fun g => ((sig g).map (domSize dom)).prod).sum := by
  induction symbols with
  | nil => rfl
  | cons g gs ih =>
    obtain ⟨T, hT⟩ := (C40_tuples dom (sig g)).1.mpr (h g (by simp))
    have e : allStateVars dom sig (g :: gs) = T.map (fun b => (g, b)) ++ allStateVars dom sig gs := by
      simp [allStateVars, hT]
    rw [e, List.length_append, List.length_map, ih (fun g' hg' => h g' (by simp [hg'])), List.map_cons, List.sum_cons,
      ((C40_tuples dom (sig g)).2 T hT).2.1]

/-- C40 for state variables: for a set of symbols, `ground_state_variables` returns an index of exactly the pairs of a symbol and a
well-sorted tuple, numbered from 0 to their number minus one without repetitions. -/
theorem C40_state_variables {α γ} [DecidableEq α] [DecidableEq γ] (dom : String → Except Err (List α))
    (sig : γ → List String) (symbols : List γ) (hs : symbols.Nodup) (h : ∀ g ∈ symbols, GoodDoms dom (sig g)) :
    ∃ idx, groundSymbols dom sig symbols = .ok idx ∧
      IndexesExactly idx (fun x => x.1 ∈ symbols ∧ WellSorted dom x.2 (sig x.1)) ∧
      idx.len = (symbols.map fun g => ((sig g).map (domSize dom)).prod).sum := by
  have h' : ∀ g ∈ symbols, ∀ s ∈ sig g, ∃ d, dom s = .ok d := by
    intro g hg s hs'; obtain ⟨d, hd, _⟩ := h g hg s hs'; exact ⟨d, hd⟩
  have hn := allStateVars_nodup dom sig symbols hs h
  refine ⟨(SymIndex.empty : SymIndex (γ × List α)).addAll (allStateVars dom sig symbols), ?_, ?_, ?_⟩
  · unfold groundSymbols
    rw [groundSymbolsLoop_eq dom sig symbols h']
    rcases addVarsRaising_cases (allStateVars dom sig symbols) SymIndex.empty [] siInv_empty (by simp) with h1 | h1
    · exact h1.1
    · exact absurd (by simpa using hn) h1.2
  · obtain ⟨⟨e1, e2, e3⟩, _⟩ := indexesExactly_of_nodup hn
    exact ⟨fun x => (e1 x).trans (mem_allStateVars dom sig symbols h' x), e2, e3⟩
  · rw [(indexesExactly_of_nodup hn).2, allStateVars_length dom sig symbols h']

/-- An exception is raised iff a domain of some symbol cannot be enumerated. -/
theorem C40_state_variables_error {α γ} [DecidableEq α] [DecidableEq γ] (dom : String → Except Err (List α))
    (sig : γ → List String) (symbols : List γ) (g : γ) (hg : g ∈ symbols) (s : String) (hsg : s ∈ sig g) (e : Err)
    (he : dom s = .error e) : ∃ e', groundSymbols dom sig symbols = .error e' := by
  unfold groundSymbols
  generalize (SymIndex.empty : SymIndex (γ × List α)) = idx
  induction symbols generalizing idx with
  | nil => simp at hg
  | cons g' gs ih =>
    simp only [groundSymbolsLoop]
    split
    · rename_i e' _; exact ⟨e', rfl⟩
    · rename_i bs hbs
      split
      · rename_i e' _; exact ⟨e', rfl⟩
      · simp only [List.mem_cons] at hg
        rcases hg with rfl | hg
        · exfalso
          obtain ⟨d, hd⟩ := (C40_tuples dom (sig g)).1.mp ⟨bs, hbs⟩ s hsg
          rw [he] at hd; cases hd
        · exact ih hg _

/-! ### Partially grounded terms -/

/-- A tuple is an instance of a partially grounded term. -/
inductive IsInstance {α} (dom : String → Except Err (List α)) : List α → List String → List (PArg α) → Prop where
  | nil : IsInstance dom [] [] []
  | fixed {c t s ss as} : IsInstance dom t ss as → IsInstance dom (c :: t) (s :: ss) (.fixed c :: as)
  | open_ {c t s ss as} : InDom dom c s → IsInstance dom t ss as → IsInstance dom (c :: t) (s :: ss) (.open_ :: as)

theorem mem_partial {α} {dom : String → Except Err (List α)} {ss : List String} {ds} (h : sortDomains dom ss = .ok ds)
    (as : List (PArg α)) (hl : as.length = ss.length) (t : List α) :
    t ∈ cart (partialDomains ds as) ↔ IsInstance dom t ss as := by
  have h' := sortDomains_ok h
  clear h
  rw [mem_cart]
  induction h' generalizing t as with
  | nil =>
    have : as = [] := by simpa using hl
    subst this
    simp only [partialDomains]
    constructor <;> (intro h; cases h; constructor)
  | @cons s d ss ds h1 h2 ih =>
    cases as with
    | nil => simp at hl
    | cons a as =>
      have hl' : as.length = ss.length := by simpa using hl
      cases a with
      | fixed c =>
        simp only [partialDomains]
        constructor
        · intro h; cases h with
          | cons h3 h4 =>
            simp only [List.mem_singleton] at h3; subst h3
            exact .fixed ((ih as hl' _).mp h4)
        · intro h; cases h with
          | fixed h4 => exact .cons (by simp) ((ih as hl' _).mpr h4)
      | open_ =>
        simp only [partialDomains]
        constructor
        · intro h; cases h with
          | cons h3 h4 => exact .open_ ⟨_, h1, h3⟩ ((ih as hl' _).mp h4)
        · intro h; cases h with
          | open_ h3 h4 =>
            obtain ⟨d', hd', hc⟩ := h3
            rw [h1] at hd'; cases hd'
            exact .cons hc ((ih as hl' _).mpr h4)

theorem partial_nodup {α} {ds : List (List α)} (h : ∀ d ∈ ds, d.Nodup) (as : List (PArg α)) :
    (cart (partialDomains ds as)).Nodup := by
  apply cart_nodup
  induction ds generalizing as with
  | nil => cases as with
    | nil => simp [partialDomains]
    | cons a as => cases a <;> simp [partialDomains]
  | cons d ds ih =>
    have ih' := ih (fun d' hd' => h d' (by simp [hd']))
    cases as with
    | nil => simpa [partialDomains] using h
    | cons a as =>
      cases a with
      | fixed c =>
        intro l hl
        simp only [partialDomains, List.mem_cons] at hl
        rcases hl with rfl | hl
        · simp
        · exact ih' as l hl
      | open_ =>
        intro l hl
        simp only [partialDomains, List.mem_cons] at hl
        rcases hl with rfl | hl
        · exact h l (by simp)
        · exact ih' as l hl

/-- All instantiations of the terms, in order. -/
def allInstances {α γ} (dom : String → Except Err (List α)) (sig : γ → List String) (terms : List (γ × List (PArg α))) :
    List (γ × List α) :=
  terms.flatMap fun g => match sortDomains dom (sig g.1) with
    | .ok ds => (cart (partialDomains ds g.2)).map (fun b => (g.1, b))
    | .error _ => []

theorem groundPartialLoop_eq {α γ} [DecidableEq α] [DecidableEq γ] (dom : String → Except Err (List α)) (sig : γ → List String)
    (terms : List (γ × List (PArg α))) (h : ∀ g ∈ terms, ∀ s ∈ sig g.1, ∃ d, dom s = .ok d) (s : SymIndex (γ × List α)) :
    groundPartialLoop dom sig s terms = addVarsRaising s (allInstances dom sig terms) := by
  induction terms generalizing s with
  | nil => rfl
  | cons g gs ih =>
    obtain ⟨f, as⟩ := g
    obtain ⟨ds, hds⟩ := sortDomains_total (h (f, as) (by simp))
    have e : allInstances dom sig ((f, as) :: gs) = (cart (partialDomains ds as)).map (fun b => (f, b)) ++ allInstances dom sig gs := by
      simp only [allInstances, List.flatMap_cons]
      simp only at hds
      rw [hds]
    rw [e, addVarsRaising_append]
    simp only at hds
    simp only [groundPartialLoop, hds]
    cases addVarsRaising s ((cart (partialDomains ds as)).map (fun b => (f, b))) with
    | error e => rfl
    | ok s' => exact ih (fun g' hg' => h g' (by simp [hg'])) _

/-- `(f, t)` is an instance of a partially grounded term. -/
def InstanceOf {α γ} (dom : String → Except Err (List α)) (sig : γ → List String) (x : γ × List α)
    (term : γ × List (PArg α)) : Prop := x.1 = term.1 ∧ IsInstance dom x.2 (sig term.1) term.2

theorem mem_oneTerm {α γ} {dom : String → Except Err (List α)} {sig : γ → List String} {g : γ × List (PArg α)}
    (h : ∀ s ∈ sig g.1, ∃ d, dom s = .ok d) (hl : g.2.length = (sig g.1).length) (x : γ × List α) :
    x ∈ (match sortDomains dom (sig g.1) with
      | .ok ds => (cart (partialDomains ds g.2)).map (fun b => (g.1, b))
      | .error _ => []) ↔ InstanceOf dom sig x g := by
  obtain ⟨ds, hds⟩ := sortDomains_total h
  rw [hds]
  simp only [List.mem_map, InstanceOf]
  constructor
  · rintro ⟨b, hb, rfl⟩; exact ⟨rfl, (mem_partial hds _ hl _).mp hb⟩
  · rintro ⟨h1, h2⟩; exact ⟨x.2, (mem_partial hds _ hl _).mpr h2, by rw [← h1]⟩

/-- C40 for partially grounded terms: when no state variable is an instance of two of the terms, the index contains exactly
the instances of the terms; otherwise the call raises. -/
theorem C40_partial_terms {α γ} [DecidableEq α] [DecidableEq γ] (dom : String → Except Err (List α))
    (sig : γ → List String) (terms : List (γ × List (PArg α))) (h : ∀ g ∈ terms, GoodDoms dom (sig g.1))
    (hl : ∀ g ∈ terms, g.2.length = (sig g.1).length) :
    (terms.Pairwise (fun g g' => ∀ x, ¬ (InstanceOf dom sig x g ∧ InstanceOf dom sig x g')) →
      ∃ idx, groundPartial dom sig terms = .ok idx ∧ IndexesExactly idx (fun x => ∃ g ∈ terms, InstanceOf dom sig x g)) ∧
    (¬ terms.Pairwise (fun g g' => ∀ x, ¬ (InstanceOf dom sig x g ∧ InstanceOf dom sig x g')) →
      groundPartial dom sig terms = .error .duplicateVariable) := by
  have h' : ∀ g ∈ terms, ∀ s ∈ sig g.1, ∃ d, dom s = .ok d := by
    intro g hg s hs'; obtain ⟨d, hd, _⟩ := h g hg s hs'; exact ⟨d, hd⟩
  have hnd : (allInstances dom sig terms).Nodup ↔
      terms.Pairwise (fun g g' => ∀ x, ¬ (InstanceOf dom sig x g ∧ InstanceOf dom sig x g')) := by
    unfold allInstances
    rw [List.nodup_flatMap]
    constructor
    · rintro ⟨_, hp⟩
      refine List.Pairwise.imp_of_mem ?_ hp
      intro a b ha hb hab x hx
      exact hab ((mem_oneTerm (h' a ha) (hl a ha) x).mpr hx.1) ((mem_oneTerm (h' b hb) (hl b hb) x).mpr hx.2)
    · intro hp
      refine ⟨?_, ?_⟩
      · intro g hg
        obtain ⟨ds, hds⟩ := sortDomains_total (h' g hg)
        rw [hds]
        exact (partial_nodup (sortDomains_nodup hds (h g hg)) _).map (fun a b hab => by simpa using hab)
      · refine List.Pairwise.imp_of_mem ?_ hp
        intro a b ha hb hab x hx hy
        exact hab x ⟨(mem_oneTerm (h' a ha) (hl a ha) x).mp hx, (mem_oneTerm (h' b hb) (hl b hb) x).mp hy⟩
  have hmem : ∀ x, x ∈ allInstances dom sig terms ↔ ∃ g ∈ terms, InstanceOf dom sig x g := by
    intro x
    unfold allInstances
    rw [List.mem_flatMap]
    constructor
    · rintro ⟨g, hg, hx⟩; exact ⟨g, hg, (mem_oneTerm (h' g hg) (hl g hg) x).mp hx⟩
    · rintro ⟨g, hg, hx⟩; exact ⟨g, hg, (mem_oneTerm (h' g hg) (hl g hg) x).mpr hx⟩
  have heq : groundPartial dom sig terms = addVarsRaising SymIndex.empty (allInstances dom sig terms) :=
    groundPartialLoop_eq dom sig terms h' _
  rw [heq, ← hnd]
  constructor
  · intro hn
    refine ⟨SymIndex.empty.addAll (allInstances dom sig terms), ?_, ?_⟩
    · rcases addVarsRaising_cases (allInstances dom sig terms) SymIndex.empty [] siInv_empty (by simp) with h1 | h1
      · exact h1.1
      · exact absurd (by simpa using hn) h1.2
    · obtain ⟨⟨e1, e2, e3⟩, _⟩ := indexesExactly_of_nodup hn
      exact ⟨fun x => (e1 x).trans (hmem x), e2, e3⟩
  · intro hn
    rcases addVarsRaising_cases (allInstances dom sig terms) SymIndex.empty [] siInv_empty (by simp) with h1 | h1
    · exact absurd (by simpa using h1.2.2) hn
    · exact h1.1

/-! ### In a language -/

theorem addDom_nodup {dom : String → List String} (h : ∀ x, (dom x).Nodup) (s c : String) : ∀ x, (addDom dom s c x).Nodup := by
  intro x
  unfold addDom upd
  split
  · split
    · exact h _
    · rename_i hc; exact List.nodup_cons.mpr ⟨hc, h _⟩
  · exact h x

theorem extendList_nodup {f : (String → List String) → String → Option (String → List String)}
    (hf : ∀ d p d', f d p = some d' → (∀ x, (d x).Nodup) → ∀ x, (d' x).Nodup) (ps : List String) :
    ∀ dom dom', extendList f dom ps = some dom' → (∀ x, (dom x).Nodup) → ∀ x, (dom' x).Nodup := by
  induction ps with
  | nil => intro dom dom' h; simp only [extendList, Option.some.injEq] at h; subst h; exact id
  | cons p ps ih =>
    intro dom dom' h hn
    simp only [extendList] at h
    split at h
    · cases h
    · rename_i d hd; exact ih d dom' h (hf _ _ _ hd hn)

theorem extend_nodup (L : Lang) (n : Nat) : ∀ dom s c dom', extend L n dom s c = some dom' → (∀ x, (dom x).Nodup) →
    ∀ x, (dom' x).Nodup := by
  induction n with
  | zero => intro dom s c dom' h; simp [extend] at h
  | succ n ih =>
    intro dom s c dom' h hn
    simp only [extend] at h
    split at h
    · simp only [Option.some.injEq] at h; subst h; exact hn
    · exact extendList_nodup (fun d p d' hd => ih d p c d' hd) _ _ _ h (addDom_nodup hn s c)

theorem setParent_dom {n L s p o L' e} (h : setParent n L s p o = some (L', e)) : L'.dom = L.dom := by
  unfold setParent at h
  split at h
  · cases h; rfl
  · simp only at h
    split at h
    · cases h
    · cases h; rfl
    · cases h; rfl

theorem attachSort_dom {n L name i p L' e} (h : attachSort n L name i p = some (L', e)) : L'.dom = L.dom := by
  unfold attachSort at h
  split at h
  · cases h; rfl
  · simp only at h
    split at h
    · cases h; rfl
    · have := setParent_dom h; exact this

theorem dom_nodup {ok L} (h : LReach ok L) : ∀ x, (L.dom x).Nodup := by
  induction h with
  | init => intro x; simp [Lang.init]
  | step L op n L' e _ _ _ _ hs ih =>
    cases op with
    | sort name parent =>
      simp only [lstep, declSort] at hs
      split at hs
      · cases hs; exact ih
      · rw [attachSort_dom hs]; exact ih
    | attachBuiltin name parent => simp only [lstep] at hs; rw [attachSort_dom hs]; exact ih
    | attachForeign name => simp only [lstep] at hs; rw [attachSort_dom hs]; exact ih
    | interval name parent lb ub =>
      simp only [lstep, declInterval] at hs
      split at hs
      · cases hs; exact ih
      · split at hs
        · cases hs; exact ih
        · split at hs
          · cases hs; exact ih
          · split at hs
            · cases hs; exact ih
            · split at hs
              · cases hs; exact ih
              · have := setParent_dom hs
                rw [this]; exact ih
    | predicate name args =>
      simp only [lstep, declPredicate] at hs
      repeat' split at hs
      all_goals (cases hs; exact ih)
    | function name args =>
      simp only [lstep, declFunction] at hs
      repeat' split at hs
      all_goals (cases hs; exact ih)
    | constant name sort castOk =>
      simp only [lstep, declConstant] at hs
      split at hs
      · cases hs; exact ih
      · split at hs
        · cases hs; exact ih
        · split at hs
          · cases hs; exact ih
          · split at hs
            · split at hs <;> (cases hs; exact ih)
            · split at hs
              · cases hs
              · rename_i dom' hd
                cases hs
                exact extend_nodup L n _ _ _ _ hd ih
    | removeSymbol name =>
      simp only [lstep, removeSymbol] at hs
      repeat' split at hs
      all_goals (cases hs; exact ih)
    | setParent s p => simp only [lstep] at hs; rw [setParent_dom hs]; exact ih
    | isSubtype t s =>
      simp only [lstep, isSubtype] at hs
      rw [Option.map_eq_some_iff] at hs
      obtain ⟨⟨b, L1⟩, h1, h2⟩ := hs
      simp only [Prod.mk.injEq] at h2
      obtain ⟨rfl, _⟩ := h2
      repeat' split at h1
      all_goals first | (cases h1; exact ih) | cases h1

theorem mapM_ok_of_forall {α β} {f : α → Except Err β} {g : α → β} {l : List α} (h : ∀ a ∈ l, f a = .ok (g a)) :
    l.mapM f = .ok (l.map g) := by
  induction l with
  | nil => rfl
  | cons a l ih =>
    rw [List.mapM_cons, h a (by simp), ih (fun b hb => h b (by simp [hb]))]; rfl

/-- C40 in a language: for every history of declarations and every signature of non-interval sorts, the enumeration succeeds
without repetitions, and a tuple is enumerated iff it has the right length and its i-th component is a constant
declared with a (non-interval) sort that is, reflexively, a subsort of the i-th sort. -/
theorem C40_language {L} (h : LReach LOp.plain L) (iv : String → Except Err (List Const)) (sig : List String)
    (hs : ∀ s ∈ sig, ¬ L.isInterval s) :
    ∃ T, signatureBindings (L.domainOf iv) sig = .ok T ∧ T.Nodup ∧
      ∀ t : List Const, t ∈ T ↔ List.Forall₂ (fun c s => ∃ n, c.name = .str n ∧ L.consts n = some c.sort ∧
        ¬ L.isInterval c.sort ∧ Star L.ParentOf c.sort s) t sig := by
  have hd : ∀ s, ¬ L.isInterval s → L.domainOf iv s = .ok ((L.dom s).map fun c => ⟨.str c, (L.consts c).getD ""⟩) := by
    intro s hns
    unfold Lang.domainOf
    rw [if_neg (by rw [isIntervalB_iff]; exact hns)]
    apply mapM_ok_of_forall
    intro c hc
    obtain ⟨so, hso, _⟩ := (C21_domains_partial h c s hns).mp hc
    simp [hso]
  have hgood : GoodDoms (L.domainOf iv) sig := by
    intro s hss
    refine ⟨_, hd s (hs s hss), ?_⟩
    refine (dom_nodup h s).map ?_
    intro a b hab
    simp only [Const.mk.injEq, Name.str.injEq] at hab
    exact hab.1
  obtain ⟨T, hT⟩ := (C40_tuples (L.domainOf iv) sig).1.mpr (fun s hss => ⟨_, hd s (hs s hss)⟩)
  obtain ⟨h1, hlen, h3⟩ := (C40_tuples (L.domainOf iv) sig).2 T hT
  refine ⟨T, hT, h3 hgood, fun t => ?_⟩
  rw [h1 t]
  have hpt : ∀ c s, ¬ L.isInterval s → (InDom (L.domainOf iv) c s ↔ ∃ n, c.name = .str n ∧ L.consts n = some c.sort ∧
        ¬ L.isInterval c.sort ∧ Star L.ParentOf c.sort s) := by
    intro c s hns
    simp only [InDom, hd s hns, Except.ok.injEq, exists_eq_left', List.mem_map]
    constructor
    · rintro ⟨n, hn, rfl⟩
      obtain ⟨so, h2, h4, h5⟩ := (C21_domains_partial h n s hns).mp hn
      exact ⟨n, rfl, by simp [h2], by simpa [h2] using h4, by simpa [h2] using h5⟩
    · rintro ⟨n, h2, h4, h5, h6⟩
      refine ⟨n, (C21_domains_partial h n s hns).mpr ⟨_, h4, h5, h6⟩, ?_⟩
      obtain ⟨cn, cs⟩ := c
      simp only at h2 h4
      subst h2
      simp [h4]
  clear h1 h3 hT hgood hlen
  induction sig generalizing t with
  | nil => constructor <;> (intro h; cases h; exact .nil)
  | cons s ss ih =>
    have ih' := ih (fun s' hs' => hs s' (by simp [hs']))
    constructor
    · intro h; cases h with
      | cons ha hb => exact .cons ((hpt _ _ (hs s (by simp))).mp ha) ((ih' _).mp hb)
    · intro h; cases h with
      | cons ha hb => exact .cons ((hpt _ _ (hs s (by simp))).mpr ha) ((ih' _).mpr hb)

/-! ### The helper `enumerate_groundings` and substitutions -/

/-- C40 for `enumerate_groundings`: on a list of variables the reported cardinality is the number of tuples, and the
tuples of the product are those whose components belong to the sorts of the variables. -/
theorem C40_enumerate (dom : Domains) (vs : List Var) (n : Nat) (syms : List Term) (insts : List (List Term))
    (h : enumerateGroundings dom (vs.map Term.var) = .ok (n, syms, insts)) :
    syms = vs.map Term.var ∧ n = (cart insts).length ∧
    ∀ t, t ∈ cart insts ↔ WellSorted dom t (vs.map Var.sort) := by
  unfold enumerateGroundings at h
  split at h
  · cases h
  · rename_i m ls hls
    simp only [Except.ok.injEq, Prod.mk.injEq] at h
    obtain ⟨h1, h2, h3⟩ := h
    subst h1; subst h2; subst h3
    refine ⟨rfl, ?_⟩
    have key : ∀ (vs : List Var) (m : Nat) ls, enumLoop dom (vs.map Term.var) = .ok (m, ls) →
        m = (ls.map List.length).prod ∧ sortDomains dom (vs.map Var.sort) = .ok ls := by
      intro vs
      induction vs with
      | nil => intro m ls h; simp only [List.map_nil, enumLoop, Except.ok.injEq, Prod.mk.injEq] at h; obtain ⟨rfl, rfl⟩ := h; simp [sortDomains]
      | cons v vs ih =>
        intro m ls h
        simp only [List.map_cons, enumLoop] at h
        split at h
        · cases h
        · rename_i cs hcs
          split at h
          · cases h
          · rename_i m' ls' hl'
            simp only [Except.ok.injEq, Prod.mk.injEq] at h
            obtain ⟨rfl, rfl⟩ := h
            obtain ⟨h4, h5⟩ := ih _ _ hl'
            simp [h4, sortDomains, hcs, h5]
    obtain ⟨h4, h5⟩ := key vs m ls hls
    refine ⟨by rw [h4, cart_length], fun t => by rw [mem_cart, forall2_inDom h5]⟩

/-- C40 for `enumerate_substitutions`: the substitutions enumerated for a list of distinct variables are exactly the maps that send
every variable to an object of its sort. -/
theorem C40_substitutions (dom : Domains) (vs : List Var) (S : List Subst) (h : enumSubsts dom vs = .ok S) (s : Subst) :
    s ∈ S ↔ ∃ t, WellSorted dom t (vs.map Var.sort) ∧ s = (vs.map Term.var).zip t := by
  have hd : domainsOf dom vs = sortDomains dom (vs.map Var.sort) := by
    clear h
    induction vs with
    | nil => rfl
    | cons v vs ih =>
      simp only [domainsOf, List.map_cons, sortDomains, ih]
      cases dom v.sort with
      | error e => rfl
      | ok d => cases sortDomains dom (vs.map Var.sort) <;> rfl
  unfold enumSubsts at h
  rw [hd] at h
  split at h
  · cases h
  · rename_i ds hds
    simp only [Except.ok.injEq] at h; subst h
    simp only [List.mem_map, createSubst]
    constructor
    · rintro ⟨t, ht, rfl⟩; exact ⟨t, (forall2_inDom hds t).mp ((mem_cart _ _).mp ht), rfl⟩
    · rintro ⟨t, ht, rfl⟩; exact ⟨t, (mem_cart _ _).mpr ((forall2_inDom hds t).mpr ht), rfl⟩

/-- When constants occur among the symbols given to `enumerate_groundings`, the returned symbols and the enumerated
values are misaligned: the value enumerated for the variable is paired with the constant. -/
theorem C40_enumerate_refuted : ∃ (dom : Domains) (symbols syms : List Term) (n : Nat) (insts : List (List Term)),
    enumerateGroundings dom symbols = .ok (n, syms, insts) ∧
    ∃ t ∈ cart insts, (createSubst syms t).get? (.var ⟨"x", "s"⟩) = none ∧ .var ⟨"x", "s"⟩ ∈ symbols := by
  refine ⟨fun _ => .ok [.const (.str "a") "s"], [.const (.str "b") "s", .var ⟨"x", "s"⟩], _, _, _, rfl, [.const (.str "a") "s"], by decide, by decide, by decide⟩

/-! ### Non-vacuity -/

/-- Two sorts with two and one objects. -/
def gDom : String → Except Err (List Const)
  | "block" => .ok [⟨.str "a", "block"⟩, ⟨.str "b", "block"⟩]
  | "table" => .ok [⟨.str "t", "table"⟩]
  | _ => .error .value

def gSig : String → List String
  | "on" => ["block", "block"]
  | "ontable" => ["block", "table"]
  | _ => []

example : ∀ g ∈ ["on", "ontable", "handempty"], GoodDoms gDom (gSig g) := by
  intro g hg s hs
  simp only [List.mem_cons, List.mem_nil_iff, or_false] at hg
  rcases hg with rfl | rfl | rfl
  · simp [gSig] at hs; subst hs; exact ⟨_, rfl, by decide⟩
  · simp [gSig] at hs; rcases hs with rfl | rfl <;> exact ⟨_, rfl, by decide⟩
  · simp [gSig] at hs

example : (groundSymbols gDom gSig ["on", "ontable", "handempty"]).toOption.map SymIndex.len = some 7 := by decide
example : (groundActions gDom [("stack", ["block", "block"])]).toOption.map (·.map (fun g => g.2.length)) = some [4] := by decide
/-- Overlapping terms `on(a, ?)` and `on(?, b)` make the call raise. -/
example : (groundPartial gDom gSig [("on", [.fixed ⟨.str "a", "block"⟩, .open_]), ("on", [.open_, .fixed ⟨.str "b", "block"⟩])]).toOption.isNone = true := by decide
example : (groundPartial gDom gSig [("on", [.fixed ⟨.str "a", "block"⟩, .open_]), ("on", [.fixed ⟨.str "b", "block"⟩, .open_])]).toOption.map SymIndex.len = some 4 := by decide
example : ∀ s ∈ ["place", "depot"], ¬ demoLang.isInterval s := by
  intro s hs
  rw [← isIntervalB_iff]
  simp only [List.mem_cons, List.mem_nil_iff, or_false] at hs
  rcases hs with rfl | rfl <;> decide

end Tarski

import Verif.Csp
import Mathlib.Data.Finset.Max
/-! C38: the acyclicity test of hypergraphs. -/
namespace Tarski
variable {α : Type} [DecidableEq α]

/-- A join tree (or forest) on a set of hyperedges: a rooted forest, given by a parent function that decreases some
rank, in which for every vertex the edges containing it form a connected subtree, that is: there is only one of them
that is a root or whose parent does not contain the vertex. -/
structure JoinTree (E : Finset (Finset α)) (parent : Finset α → Option (Finset α)) (rank : Finset α → Nat) : Prop where
  parent_mem : ∀ e ∈ E, ∀ p, parent e = some p → p ∈ E ∧ rank p < rank e
  connected : ∀ v, ∀ e ∈ E, ∀ e' ∈ E, v ∈ e → v ∈ e' → (∀ p, parent e = some p → v ∉ p) →
    (∀ p, parent e' = some p → v ∉ p) → e = e'

/-- A hypergraph is (alpha-)acyclic if it has a join tree. -/
def Acyclic (E : Finset (Finset α)) : Prop := ∃ parent rank, JoinTree E parent rank

/-- `f` is an ear of `E`: it is the only edge, or what it shares with the others is contained in one of them. -/
def IsEar (E : Finset (Finset α)) (f : Finset α) : Prop :=
  E.erase f = ∅ ∨ ∃ g ∈ E.erase f, ∀ q ∈ E.erase f, f ∩ q ⊆ g

/-- Some order of removing ears removes all edges. -/
inductive Reducible : Finset (Finset α) → Prop
  | empty : Reducible ∅
  | ear (E f) : f ∈ E → IsEar E f → Reducible (E.erase f) → Reducible E

/-! ### Join trees and ear removal -/

theorem JoinTree.top {E : Finset (Finset α)} {parent rank} (h : JoinTree E parent rank) (v : α) :
    ∀ n, ∀ e ∈ E, rank e ≤ n → v ∈ e → ∃ t ∈ E, v ∈ t ∧ (∀ p, parent t = some p → v ∉ p) ∧ rank t ≤ rank e := by
  intro n
  induction n with
  | zero =>
    intro e he hr hv
    refine ⟨e, he, hv, fun p hp => ?_, Nat.le_refl _⟩
    have := (h.parent_mem e he p hp).2; omega
  | succ n ih =>
    intro e he hr hv
    by_cases hp : ∃ p, parent e = some p ∧ v ∈ p
    · obtain ⟨p, hp, hvp⟩ := hp
      obtain ⟨h1, h2⟩ := h.parent_mem e he p hp
      obtain ⟨t, a, b, c, d⟩ := ih p h1 (by omega) hvp
      exact ⟨t, a, b, c, by omega⟩
    · exact ⟨e, he, hv, fun p hp' hv' => hp ⟨p, hp', hv'⟩, Nat.le_refl _⟩

theorem reducible_of_acyclic : ∀ (n : Nat) (E : Finset (Finset α)), E.card = n → Acyclic E → Reducible E := by
  intro n
  induction n with
  | zero =>
    intro E hc _
    rw [Finset.card_eq_zero] at hc; subst hc; exact Reducible.empty
  | succ n ih =>
    rintro E hc ⟨parent, rank, h⟩
    have hne : E.Nonempty := by rw [← Finset.card_pos]; omega
    obtain ⟨e, he, hmax⟩ := Finset.exists_max_image E rank hne
    have hleaf : ∀ x ∈ E, parent x ≠ some e := by
      intro x hx hp
      have := (h.parent_mem x hx e hp).2
      have := hmax x hx
      omega
    have ht : JoinTree (E.erase e) parent rank := by
      constructor
      · intro x hx p hp
        have hxE := Finset.mem_of_mem_erase hx
        obtain ⟨h1, h2⟩ := h.parent_mem x hxE p hp
        exact ⟨Finset.mem_erase.2 ⟨fun e' => hleaf x hxE (e' ▸ hp), h1⟩, h2⟩
      · intro v x hx y hy
        exact h.connected v x (Finset.mem_of_mem_erase hx) y (Finset.mem_of_mem_erase hy)
    refine Reducible.ear E e he ?_ (ih _ (by rw [Finset.card_erase_of_mem he, hc]; rfl) ⟨parent, rank, ht⟩)
    -- the vertices shared with another edge are in the parent
    have hshare : ∀ q ∈ E.erase e, ∀ v ∈ e, v ∈ q → ∃ p, parent e = some p ∧ v ∈ p := by
      intro q hq v hve hvq
      by_contra hno
      have htop : ∀ p, parent e = some p → v ∉ p := fun p hp hvp => hno ⟨p, hp, hvp⟩
      obtain ⟨t, htm, htv, htt, _⟩ := ht.top v _ q hq (Nat.le_refl _) hvq
      have := h.connected v e he t (Finset.mem_of_mem_erase htm) hve htv htop htt
      exact Finset.ne_of_mem_erase htm this.symm
    by_cases hemp : E.erase e = ∅
    · exact Or.inl hemp
    · right
      cases hp : parent e with
      | none =>
        obtain ⟨g, hg⟩ := Finset.nonempty_iff_ne_empty.2 hemp
        refine ⟨g, hg, fun q hq v hv => ?_⟩
        rw [Finset.mem_inter] at hv
        obtain ⟨p, hp', _⟩ := hshare q hq v hv.1 hv.2
        rw [hp] at hp'; cases hp'
      | some p =>
        refine ⟨p, Finset.mem_erase.2 ⟨?_, (h.parent_mem e he p hp).1⟩, fun q hq v hv => ?_⟩
        · rintro rfl; exact absurd (h.parent_mem p he p hp).2 (by omega)
        · rw [Finset.mem_inter] at hv
          obtain ⟨p', hp', hv'⟩ := hshare q hq v hv.1 hv.2
          rw [hp] at hp'; cases hp'; exact hv'

theorem acyclic_of_reducible (E : Finset (Finset α)) (h : Reducible E) : Acyclic E := by
  induction h with
  | empty => exact ⟨fun _ => none, fun _ => 0, ⟨by simp, by simp⟩⟩
  | ear E f hf he _ ih =>
    obtain ⟨parent, rank, h⟩ := ih
    have hM : ∃ M, ∀ e ∈ E.erase f, rank e < M := by
      by_cases hne : (E.erase f).Nonempty
      · obtain ⟨m, _, hm⟩ := Finset.exists_max_image (E.erase f) rank hne
        exact ⟨rank m + 1, fun e he => Nat.lt_succ_of_le (hm e he)⟩
      · exact ⟨0, fun e he => absurd ⟨e, he⟩ hne⟩
    obtain ⟨M, hM⟩ := hM
    have hin : ∀ {x}, x ∈ E → x ≠ f → x ∈ E.erase f := fun hx hne => Finset.mem_erase.2 ⟨hne, hx⟩
    rcases he with he | ⟨g, hg, hsub⟩
    · refine ⟨fun _ => none, fun _ => 0, ⟨by simp, ?_⟩⟩
      intro v e hee e' hee' _ _ _ _
      have h1 : ∀ x ∈ E, x = f := by
        intro x hx; by_contra hne
        have := hin hx hne; rw [he] at this; simp at this
      rw [h1 e hee, h1 e' hee']
    · refine ⟨fun e => if e = f then some g else parent e, fun e => if e = f then M else rank e, ?_, ?_⟩
      · intro e hee p hp
        have hgf := Finset.ne_of_mem_erase hg
        by_cases hef : e = f
        · subst hef
          simp only [if_true, Option.some.injEq] at hp; subst hp
          simp only [if_true, hgf, if_false]
          exact ⟨Finset.mem_of_mem_erase hg, hM g hg⟩
        · simp only [hef, if_false] at hp ⊢
          obtain ⟨h1, h2⟩ := h.parent_mem e (hin hee hef) p hp
          simp only [Finset.ne_of_mem_erase h1, if_false]
          exact ⟨Finset.mem_of_mem_erase h1, h2⟩
      · intro v e hee e' hee' hv hv' ht ht'
        -- an edge other than f containing v makes f not a top
        have key : ∀ x ∈ E, x ≠ f → v ∈ x → v ∈ f → v ∈ g := by
          intro x hx hxf hvx hvf
          exact hsub x (hin hx hxf) (Finset.mem_inter.2 ⟨hvf, hvx⟩)
        by_cases h1 : e = f
        · by_cases h2 : e' = f
          · rw [h1, h2]
          · exfalso
            subst h1
            exact ht g (by simp) (key e' hee' h2 hv' hv)
        · by_cases h2 : e' = f
          · exfalso
            subst h2
            exact ht' g (by simp) (key e hee h1 hv hv')
          · simp only [h1, h2, if_false] at ht ht'
            exact h.connected v e (hin hee h1) e' (hin hee' h2) hv hv' ht ht'

/-! ### The order of removing ears does not matter -/

/-- Replacing an edge by one that meets the other edges in the same vertices. -/
theorem reducible_swap : ∀ (n : Nat) (R : Finset (Finset α)) (f g : Finset α), R.card = n → f ∉ R → g ∉ R →
    (∀ q ∈ R, f ∩ q = g ∩ q) → Reducible (insert f R) → Reducible (insert g R) := by
  intro n
  induction n with
  | zero =>
    intro R f g hc _ _ _ _
    rw [Finset.card_eq_zero] at hc; subst hc
    refine Reducible.ear _ g (by simp) (Or.inl (by simp)) ?_
    have : (insert g (∅ : Finset (Finset α))).erase g = ∅ := by simp
    rw [this]; exact Reducible.empty
  | succ n ih =>
    intro R f g hc hf hg hsame hr
    have eg : (insert g R).erase g = R := Finset.erase_insert hg
    have ef : (insert f R).erase f = R := Finset.erase_insert hf
    generalize hE : insert f R = E at hr
    cases hr with
    | empty => exact absurd hE (Finset.insert_ne_empty f R)
    | ear _ h hh he hred =>
      subst hE
      by_cases hhf : h = f
      · subst hhf
        rw [ef] at hred
        refine Reducible.ear _ g (Finset.mem_insert_self g R) ?_ (by rw [eg]; exact hred)
        unfold IsEar at he ⊢
        rw [ef] at he; rw [eg]
        rcases he with he | ⟨p, hp, hs⟩
        · exact Or.inl he
        · exact Or.inr ⟨p, hp, fun q hq => by rw [← hsame q hq]; exact hs q hq⟩
      · have hhR : h ∈ R := (Finset.mem_insert.1 hh).resolve_left hhf
        have hhg : h ≠ g := fun e => hg (e ▸ hhR)
        have e1 : (insert f R).erase h = insert f (R.erase h) := Finset.erase_insert_of_ne (Ne.symm hhf)
        have e2 : (insert g R).erase h = insert g (R.erase h) := Finset.erase_insert_of_ne (Ne.symm hhg)
        rw [e1] at hred
        refine Reducible.ear _ h (Finset.mem_insert_of_mem hhR) ?_ ?_
        · unfold IsEar at he ⊢
          rw [e1] at he; rw [e2]
          rcases he with he | ⟨p, hp, hs⟩
          · exact absurd he (Finset.insert_ne_empty _ _)
          · right
            have hfg : f ∩ h = g ∩ h := hsame h hhR
            have hsR : ∀ q ∈ R.erase h, h ∩ q ⊆ p := fun q hq => hs q (Finset.mem_insert_of_mem hq)
            rcases Finset.mem_insert.1 hp with rfl | hp
            · refine ⟨g, Finset.mem_insert_self _ _, fun q hq v hv => ?_⟩
              rw [Finset.mem_inter] at hv
              rcases Finset.mem_insert.1 hq with rfl | hq
              · exact hv.2
              · have hvf := hsR q hq (Finset.mem_inter.2 hv)
                have : v ∈ p ∩ h := Finset.mem_inter.2 ⟨hvf, hv.1⟩
                rw [hfg] at this; exact (Finset.mem_inter.1 this).1
            · refine ⟨p, Finset.mem_insert_of_mem hp, fun q hq v hv => ?_⟩
              rcases Finset.mem_insert.1 hq with rfl | hq
              · have : v ∈ q ∩ h := by rw [Finset.inter_comm]; exact hv
                rw [← hfg, Finset.inter_comm] at this
                exact hs f (Finset.mem_insert_self _ _) this
              · exact hsR q hq hv
        · rw [e2]
          refine ih (R.erase h) f g (by rw [Finset.card_erase_of_mem hhR, hc]; rfl)
            (fun h' => hf (Finset.mem_of_mem_erase h')) (fun h' => hg (Finset.mem_of_mem_erase h'))
            (fun q hq => hsame q (Finset.mem_of_mem_erase hq)) hred

theorem reducible_erase : ∀ (n : Nat) (E : Finset (Finset α)) (f : Finset α), E.card = n → f ∈ E → IsEar E f →
    Reducible E → Reducible (E.erase f) := by
  intro n
  induction n with
  | zero =>
    intro E f hc hf _ _
    rw [Finset.card_eq_zero] at hc; subst hc; simp at hf
  | succ n ih =>
    intro E f hc hf hef hr
    cases hr with
    | empty => simp at hf
    | ear _ g hg heg hred =>
      by_cases hfg : f = g
      · subst hfg; exact hred
      · have hgf : g ≠ f := Ne.symm hfg
        have hfE : f ∈ E.erase g := Finset.mem_erase.2 ⟨hfg, hf⟩
        have hgE : g ∈ E.erase f := Finset.mem_erase.2 ⟨hgf, hg⟩
        have hcard : (E.erase g).card = n := by rw [Finset.card_erase_of_mem hg, hc]; rfl
        have ecomm : (E.erase f).erase g = (E.erase g).erase f := Finset.erase_right_comm
        have memfg : ∀ {q}, q ∈ (E.erase g).erase f ↔ q ≠ f ∧ q ≠ g ∧ q ∈ E := by
          intro q; simp only [Finset.mem_erase]
        rcases hef with h | ⟨f', hf', hsf⟩
        · rw [h] at hgE; simp at hgE
        rcases heg with h | ⟨g', hg', hsg⟩
        · rw [h] at hfE; simp at hfE
        have hf'1 : f' ≠ f := Finset.ne_of_mem_erase hf'
        have hg'1 : g' ≠ g := Finset.ne_of_mem_erase hg'
        by_cases h1 : f' = g
        · by_cases h2 : g' = f
          · -- f and g witness each other
            subst h1; subst h2
            have hsame : ∀ q ∈ (E.erase f').erase g', g' ∩ q = f' ∩ q := by
              intro q hq
              obtain ⟨q1, q2, q3⟩ := memfg.1 hq
              ext v
              simp only [Finset.mem_inter]
              constructor
              · rintro ⟨a, b⟩
                exact ⟨hsf q (Finset.mem_erase.2 ⟨q1, q3⟩) (Finset.mem_inter.2 ⟨a, b⟩), b⟩
              · rintro ⟨a, b⟩
                exact ⟨hsg q (Finset.mem_erase.2 ⟨q2, q3⟩) (Finset.mem_inter.2 ⟨a, b⟩), b⟩
            have := reducible_swap _ ((E.erase f').erase g') g' f' rfl (by simp)
              (fun h => (memfg.1 h).2.1 rfl) hsame (by rw [Finset.insert_erase hfE]; exact hred)
            rwa [← ecomm, Finset.insert_erase hgE] at this
          · -- g' witnesses f once g is removed
            subst h1
            have hearf : IsEar (E.erase f') f := by
              right
              refine ⟨g', Finset.mem_erase.2 ⟨h2, hg'⟩, fun q hq v hv => ?_⟩
              obtain ⟨q1, q2, q3⟩ := memfg.1 hq
              have hv' := Finset.mem_inter.1 hv
              have := hsf q (Finset.mem_erase.2 ⟨q1, q3⟩) hv
              exact hsg q (Finset.mem_erase.2 ⟨q2, q3⟩) (Finset.mem_inter.2 ⟨this, hv'.2⟩)
            have hearg : IsEar (E.erase f) f' := by
              right
              refine ⟨g', by rw [ecomm]; exact Finset.mem_erase.2 ⟨h2, hg'⟩, fun q hq => ?_⟩
              rw [ecomm] at hq
              obtain ⟨q1, q2, q3⟩ := memfg.1 hq
              exact hsg q (Finset.mem_erase.2 ⟨q2, q3⟩)
            refine Reducible.ear _ f' hgE hearg ?_
            rw [ecomm]
            exact ih _ f hcard hfE hearf hred
        · -- f keeps its witness when g is removed
          have hearf : IsEar (E.erase g) f := by
            right
            refine ⟨f', Finset.mem_erase.2 ⟨hf'1, Finset.mem_erase.2 ⟨h1, Finset.mem_of_mem_erase hf'⟩⟩, fun q hq => ?_⟩
            obtain ⟨q1, q2, q3⟩ := memfg.1 hq
            exact hsf q (Finset.mem_erase.2 ⟨q1, q3⟩)
          have hearg : IsEar (E.erase f) g := by
            right
            by_cases h2 : g' = f
            · subst h2
              refine ⟨f', Finset.mem_erase.2 ⟨h1, hf'⟩, fun q hq v hv => ?_⟩
              rw [ecomm] at hq
              obtain ⟨q1, q2, q3⟩ := memfg.1 hq
              have hv' := Finset.mem_inter.1 hv
              have := hsg q (Finset.mem_erase.2 ⟨q2, q3⟩) hv
              exact hsf q (Finset.mem_erase.2 ⟨q1, q3⟩) (Finset.mem_inter.2 ⟨this, hv'.2⟩)
            · refine ⟨g', by rw [ecomm]; exact Finset.mem_erase.2 ⟨h2, hg'⟩, fun q hq => ?_⟩
              rw [ecomm] at hq
              obtain ⟨q1, q2, q3⟩ := memfg.1 hq
              exact hsg q (Finset.mem_erase.2 ⟨q2, q3⟩)
          refine Reducible.ear _ g hgE hearg ?_
          rw [ecomm]
          exact ih _ f hcard hfE hearf hred

/-! ### The algorithm -/

theorem nodeCounts_one (E : Finset (Finset α)) (f : Finset α) (hf : f ∈ E) (n : α) (hn : n ∈ f) :
    nodeCounts E n = 1 ↔ ∀ q ∈ E.erase f, n ∉ q := by
  have hm : f ∈ E.filter fun e => n ∈ e := Finset.mem_filter.2 ⟨hf, hn⟩
  have : nodeCounts E n = 1 ↔ (E.filter fun e => n ∈ e).card = 1 := by
    simp only [nodeCounts]; omega
  rw [this, Finset.card_eq_one]
  constructor
  · rintro ⟨x, hx⟩ q hq hnq
    rw [hx, Finset.mem_singleton] at hm
    have : q ∈ E.filter fun e => n ∈ e := Finset.mem_filter.2 ⟨Finset.mem_of_mem_erase hq, hnq⟩
    rw [hx, Finset.mem_singleton] at this
    exact Finset.ne_of_mem_erase hq (this.trans hm.symm)
  · intro h
    refine ⟨f, Finset.ext fun x => ?_⟩
    rw [Finset.mem_filter, Finset.mem_singleton]
    constructor
    · rintro ⟨h1, h2⟩
      by_contra hne
      exact h x (Finset.mem_erase.2 ⟨hne, h1⟩) h2
    · rintro rfl; exact ⟨hf, hn⟩

theorem decrement_nodeCounts (E : Finset (Finset α)) (f : Finset α) (hf : f ∈ E) :
    decrement f (nodeCounts E) = nodeCounts (E.erase f) := by
  funext n
  simp only [decrement, nodeCounts]
  by_cases hn : n ∈ f
  · simp only [hn, if_true]
    have hm : f ∈ E.filter fun e => n ∈ e := Finset.mem_filter.2 ⟨hf, hn⟩
    have : (E.erase f).filter (fun e => n ∈ e) = (E.filter fun e => n ∈ e).erase f := by
      ext x; simp only [Finset.mem_filter, Finset.mem_erase]; tauto
    rw [this, Finset.card_erase_of_mem hm]
    have := Finset.card_pos.2 ⟨f, hm⟩
    omega
  · simp only [hn, if_false]
    congr 2
    ext x; simp only [Finset.mem_filter, Finset.mem_erase]
    constructor
    · rintro ⟨a, b⟩; exact ⟨⟨fun e => hn (e ▸ b), a⟩, b⟩
    · rintro ⟨⟨_, a⟩, b⟩; exact ⟨a, b⟩

/-- The algorithm finds an ear exactly if there is one. -/
theorem findEar_spec (o : SetOrder (Finset α)) (E : Finset (Finset α)) :
    (∀ f, findEar o E (nodeCounts E) = some f → f ∈ E ∧ IsEar E f) ∧
    (findEar o E (nodeCounts E) = none → ∀ f ∈ E, ¬ IsEar E f) := by
  constructor
  · intro f h
    have hf := findEar_mem o E _ f h
    refine ⟨hf, ?_⟩
    by_cases hemp : E.erase f = ∅
    · exact Or.inl hemp
    right
    unfold findEar at h
    split at h
    · rename_i g hg
      cases h
      have hall := List.find?_some hg
      simp only [decide_eq_true_eq] at hall
      obtain ⟨g, hg⟩ := Finset.nonempty_iff_ne_empty.2 hemp
      refine ⟨g, hg, fun q hq v hv => ?_⟩
      rw [Finset.mem_inter] at hv
      exact absurd hv.2 ((nodeCounts_one E f hf v hv.1).1 (hall v hv.1) q hq)
    · simp only [Option.map_eq_some_iff] at h
      obtain ⟨p, hp, rfl⟩ := h
      have hmem := List.mem_of_find?_eq_some hp
      have hall := List.find?_some hp
      simp only [decide_eq_true_eq] at hall
      simp only [permutations2, List.mem_flatMap, List.mem_map, List.mem_filter, decide_eq_true_eq] at hmem
      obtain ⟨f, _, g, ⟨hg, hne⟩, rfl⟩ := hmem
      dsimp only at *
      refine ⟨g, Finset.mem_erase.2 ⟨hne, (o.mem E g).1 hg⟩, fun q hq v hv => ?_⟩
      rw [Finset.mem_inter] at hv
      by_contra hvg
      exact (nodeCounts_one E f hf v hv.1).1 (hall v (Finset.mem_sdiff.2 ⟨hv.1, hvg⟩)) q hq hv.2
  · intro h f hf he
    unfold findEar at h
    split at h
    · cases h
    · rename_i h1
      simp only [Option.map_eq_none_iff, List.find?_eq_none, decide_eq_true_eq] at h h1
      rcases he with he | ⟨g, hg, hs⟩
      · refine h1 f ((o.mem E f).2 hf) fun n hn => (nodeCounts_one E f hf n hn).2 fun q hq => ?_
        rw [he] at hq; simp at hq
      · refine h (f, g) ?_ ?_
        · simp only [permutations2, List.mem_flatMap, List.mem_map, List.mem_filter, decide_eq_true_eq]
          exact ⟨f, (o.mem E f).2 hf, g, ⟨(o.mem E g).2 (Finset.mem_of_mem_erase hg), Finset.ne_of_mem_erase hg⟩, rfl⟩
        · intro n hn
          rw [Finset.mem_sdiff] at hn
          refine (nodeCounts_one E f hf n hn.1).2 fun q hq hnq => hn.2 (hs q hq (Finset.mem_inter.2 ⟨hn.1, hnq⟩))

theorem gyoLoop_spec (o : SetOrder (Finset α)) : ∀ (n : Nat) (E : Finset (Finset α)), E.card = n →
    (gyoLoop o E (nodeCounts E) = ∅ ↔ Reducible E) := by
  intro n
  induction n with
  | zero =>
    intro E hc
    rw [Finset.card_eq_zero] at hc; subst hc
    refine ⟨fun _ => Reducible.empty, fun _ => ?_⟩
    unfold gyoLoop
    split
    · rfl
    · rename_i f h; exact absurd (findEar_mem o _ _ f h) (by simp)
  | succ n ih =>
    intro E hc
    unfold gyoLoop
    split
    · rename_i h
      constructor
      · intro h0; subst h0; exact Reducible.empty
      · intro hr
        cases hr with
        | empty => rfl
        | ear _ f hf he _ => exact absurd he ((findEar_spec o E).2 h f hf)
    · rename_i f h
      obtain ⟨hf, he⟩ := (findEar_spec o E).1 f h
      rw [decrement_nodeCounts E f hf, ih _ (by rw [Finset.card_erase_of_mem hf, hc]; rfl)]
      exact ⟨fun hr => Reducible.ear E f hf he hr, reducible_erase _ E f rfl hf he⟩

theorem reducible_of_card_le_one (E : Finset (Finset α)) (h : E.card ≤ 1) : Reducible E := by
  rcases Nat.le_one_iff_eq_zero_or_eq_one.1 h with h | h
  · rw [Finset.card_eq_zero] at h; subst h; exact Reducible.empty
  · obtain ⟨f, rfl⟩ := Finset.card_eq_one.1 h
    have e : ({f} : Finset (Finset α)).erase f = ∅ := by simp
    exact Reducible.ear _ f (by simp) (Or.inl e) (by rw [e]; exact Reducible.empty)

/-- Edges over at most one vertex. -/
theorem reducible_of_one_node : ∀ (n : Nat) (E : Finset (Finset α)) (N : Finset α), E.card = n → N.card ≤ 1 →
    (∀ e ∈ E, e ⊆ N) → Reducible E := by
  intro n
  induction n with
  | zero =>
    intro E N hc _ _
    rw [Finset.card_eq_zero] at hc; subst hc; exact Reducible.empty
  | succ n ih =>
    intro E N hc hN hE
    by_cases h1 : E.card ≤ 1
    · exact reducible_of_card_le_one E h1
    · -- remove an edge other than a largest one
      have hne : E.Nonempty := by rw [← Finset.card_pos]; omega
      obtain ⟨p, hp, hmax⟩ := Finset.exists_max_image E Finset.card hne
      have : (E.erase p).Nonempty := by rw [← Finset.card_pos, Finset.card_erase_of_mem hp]; omega
      obtain ⟨f, hf⟩ := this
      have hfE := Finset.mem_of_mem_erase hf
      refine Reducible.ear E f hfE (Or.inr ⟨p, Finset.mem_erase.2 ⟨(Finset.ne_of_mem_erase hf).symm, hp⟩, ?_⟩)
        (ih _ N (by rw [Finset.card_erase_of_mem hfE, hc]; rfl) hN fun e he => hE e (Finset.mem_of_mem_erase he))
      intro q _ v hv
      have hvf := (Finset.mem_inter.1 hv).1
      have h2 : 1 ≤ p.card := Nat.le_trans (Finset.card_pos.2 ⟨v, hvf⟩) (hmax f hfE)
      have h3 : p = N := Finset.eq_of_subset_of_card_le (hE p hp) (by omega)
      rw [h3]; exact hE f hfE hvf

/-- C38: `check_hypergraph_acyclicity(H)` is true exactly if the hypergraph has a join tree, in whatever order Python
iterates over the sets. -/
theorem C38_acyclicity (o : SetOrder (Finset α)) (H : List (List α)) :
    checkAcyclicity o H = true ↔ Acyclic (H.map List.toFinset).toFinset := by
  have hiff : ∀ E : Finset (Finset α), Reducible E ↔ Acyclic E :=
    fun E => ⟨acyclic_of_reducible E, reducible_of_acyclic _ E rfl⟩
  unfold checkAcyclicity
  dsimp only
  split
  · rename_i h
    refine iff_of_true rfl ((hiff _).1 ?_)
    rcases h with h | h
    · exact reducible_of_card_le_one _ h
    · refine reducible_of_one_node _ _ H.flatten.toFinset rfl h ?_
      intro e he v hv
      simp only [List.mem_toFinset, List.mem_map] at he
      obtain ⟨l, hl, rfl⟩ := he
      rw [List.mem_toFinset] at hv ⊢
      exact List.mem_flatten.2 ⟨l, hl, hv⟩
  · rw [decide_eq_true_eq, Finset.card_eq_zero, gyoLoop_spec o _ _ rfl, hiff]

/-- A path of two edges has a join tree; a triangle has none. -/
example : Acyclic ({{1, 2}, {2, 3}} : Finset (Finset Nat)) := by
  refine acyclic_of_reducible _ (Reducible.ear _ {1, 2} (by decide) (Or.inr ⟨{2, 3}, by decide, by decide⟩) ?_)
  exact reducible_of_card_le_one _ (by decide)

example : ¬ Acyclic ({{1, 2}, {2, 3}, {1, 3}} : Finset (Finset Nat)) := by
  intro h
  have hr := reducible_of_acyclic _ _ rfl h
  generalize hE : ({{1, 2}, {2, 3}, {1, 3}} : Finset (Finset Nat)) = E at hr
  cases hr with
  | empty => exact absurd hE (by decide)
  | ear _ f hf he _ =>
    subst hE
    have : f = {1, 2} ∨ f = {2, 3} ∨ f = {1, 3} := by simpa using hf
    have hno : ∀ f ∈ ({{1, 2}, {2, 3}, {1, 3}} : Finset (Finset Nat)), ¬ IsEar {{1, 2}, {2, 3}, {1, 3}} f := by
      unfold IsEar; decide
    exact hno f hf he

/-- Orders of iteration exist. -/
noncomputable def exOrder (β : Type) : SetOrder β := ⟨Finset.toList, fun _ _ => Finset.mem_toList, Finset.nodup_toList⟩

example (o : SetOrder (Finset Nat)) : checkAcyclicity o [[1, 2], [2, 3], [3, 2]] = true := by
  rw [C38_acyclicity]
  refine acyclic_of_reducible _ (Reducible.ear _ {1, 2} (by decide) (Or.inr ⟨{2, 3}, by decide, by decide⟩) ?_)
  exact reducible_of_card_le_one _ (by decide)

end Tarski

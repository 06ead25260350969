import Verif.Bench
import Mathlib.Logic.Relation
import Mathlib.Data.List.Perm.Basic
import Mathlib.Data.List.Perm.Subperm
import Mathlib.Data.List.Nodup
import Mathlib.Data.Fintype.Order
import Mathlib.Tactic.Common
/-! C76: the blocksworld configurations drawn by `generate_random_bw_pattern`. -/
namespace Tarski

/-! ### Specification -/

/-- `pat` is a blocksworld configuration of the blocks: every block has exactly one location, which is the table or a
block, no block carries two blocks, and no block is (transitively) above itself. -/
structure BWConfig (blocks : List String) (pat : List (String × String)) : Prop where
  once : (pat.map (·.1)).Perm blocks
  support : ∀ x y, (x, y) ∈ pat → y = "table" ∨ y ∈ blocks
  single : ∀ x x' y, (x, y) ∈ pat → (x', y) ∈ pat → y = "table" ∨ x = x'
  acyclic : ∀ x, ¬ Relation.TransGen (fun a b => (a, b) ∈ pat) x x

/-! ### Proofs -/

/-- Configurations that are built from the table up: each block is put on the table or on a clear block. -/
inductive Build : List (String × String) → Prop
  | nil : Build []
  | snoc (pat b t) : Build pat → b ≠ "table" → b ∉ pat.map (·.1) →
      (t = "table" ∨ (t ∈ pat.map (·.1) ∧ t ∉ pat.map (·.2))) → Build (pat ++ [(b, t)])

/-- The set of clear places of a configuration. -/
def ClearIn (pat : List (String × String)) (cl : List String) : Prop :=
  cl.Nodup ∧ ∀ x, x ∈ cl ↔ x = "table" ∨ (x ∈ pat.map (·.1) ∧ x ∉ pat.map (·.2))

theorem build_no_table {pat} (h : Build pat) : "table" ∉ pat.map (·.1) := by
  induction h with
  | nil => simp
  | snoc pat b t _ hb _ _ ih => simp only [List.map_append, List.mem_append, not_or]; exact ⟨ih, by simpa using hb.symm⟩

theorem build_nodup {pat} (h : Build pat) : (pat.map (·.1)).Nodup := by
  induction h with
  | nil => simp
  | snoc pat b t _ _ hb _ ih => simp only [List.map_append, List.map_cons, List.map_nil]; exact List.nodup_append.2 ⟨ih, by simp, by intro a ha c hc he; simp only [List.mem_singleton] at hc; subst hc; subst he; exact hb ha⟩

theorem build_support {pat} (h : Build pat) : ∀ x y, (x, y) ∈ pat → y = "table" ∨ y ∈ pat.map (·.1) := by
  induction h with
  | nil => simp
  | snoc pat b t _ _ _ ht ih =>
    intro x y hxy
    simp only [List.mem_append, List.mem_singleton, Prod.mk.injEq, List.map_append] at hxy ⊢
    rcases hxy with h | ⟨rfl, rfl⟩
    · rcases ih x y h with h | h
      · exact .inl h
      · exact .inr (.inl h)
    · rcases ht with h | h
      · exact .inl h
      · exact .inr (.inl h.1)

theorem build_single {pat} (h : Build pat) : ∀ x x' y, (x, y) ∈ pat → (x', y) ∈ pat → y = "table" ∨ x = x' := by
  induction h with
  | nil => simp
  | snoc pat b t _ _ _ ht ih =>
    intro x x' y h1 h2
    simp only [List.mem_append, List.mem_singleton, Prod.mk.injEq] at h1 h2
    have ht' : ∀ z, (z, t) ∈ pat → t = "table" := by
      intro z hz
      rcases ht with h | h
      · exact h
      · exact absurd (List.mem_map_of_mem (f := (·.2)) hz) h.2
    rcases h1 with h1 | ⟨rfl, rfl⟩ <;> rcases h2 with h2 | ⟨rfl, h2⟩
    · exact ih x x' y h1 h2
    · subst h2; exact .inl (ht' _ h1)
    · exact .inl (ht' _ h2)
    · exact .inr rfl

/-- Blocks are put after the blocks that carry them. -/
theorem build_rank {pat} (h : Build pat) : ∃ r : String → Nat, ∀ x y, (x, y) ∈ pat → y = "table" ∨ r y < r x := by
  induction h with
  | nil => exact ⟨fun _ => 0, by simp⟩
  | snoc pat b t hp hb1 hb ht ih =>
    obtain ⟨r, hr⟩ := ih
    refine ⟨fun x => if x = b then r t + 1 else r x, ?_⟩
    intro x y hxy
    simp only [List.mem_append, List.mem_singleton, Prod.mk.injEq] at hxy
    rcases hxy with h | ⟨rfl, rfl⟩
    · have hx : x ≠ b := by rintro rfl; exact hb (List.mem_map_of_mem (f := (·.1)) h)
      rcases build_support hp x y h with hy | hy
      · exact .inl hy
      · have hy' : y ≠ b := by rintro rfl; exact hb hy
        simpa [hx, hy'] using hr x y h
    · rcases ht with h | h
      · exact .inl h
      · have : y ≠ x := by rintro rfl; exact hb h.1
        simp [this]

theorem build_acyclic {pat} (h : Build pat) (x : String) : ¬ Relation.TransGen (fun a b => (a, b) ∈ pat) x x := by
  obtain ⟨r, hr⟩ := build_rank h
  have key : ∀ a b, Relation.TransGen (fun a b => (a, b) ∈ pat) a b → b = "table" ∨ r b < r a := by
    intro a b hab
    induction hab with
    | single h => exact hr _ _ h
    | tail h1 h2 ih =>
      rename_i b c
      have hb : b ≠ "table" := by rintro rfl; exact build_no_table h (List.mem_map_of_mem (f := (·.1)) h2)
      rcases hr _ _ h2 with h3 | h3
      · exact .inl h3
      · rcases ih with h4 | h4
        · exact absurd h4 hb
        · exact .inr (h3.trans h4)
  intro hx
  have hx' : x ≠ "table" := by
    rintro rfl
    obtain ⟨b, h1, -⟩ := Relation.TransGen.head'_iff.1 hx
    exact build_no_table h (List.mem_map_of_mem (f := (·.1)) h1)
  rcases key x x hx with h | h
  · exact hx' h
  · exact absurd h (lt_irrefl _)

theorem build_config {pat blocks} (h : Build pat) (hp : (pat.map (·.1)).Perm blocks) : BWConfig blocks pat :=
  ⟨hp, fun x y hxy => (build_support h x y hxy).imp id (fun h => hp.mem_iff.1 h), build_single h, build_acyclic h⟩

/-- One iteration keeps the set of clear places. -/
theorem clearIn_step {pat cl b t} (hB : Build pat) (hb1 : b ≠ "table") (hb : b ∉ pat.map (·.1))
    (hc : ClearIn pat cl) (ht : t ∈ cl) :
    ClearIn (pat ++ [(b, t)])
      (if b ∈ (if t ≠ "table" then cl.filter (fun c => decide (c ≠ t)) else cl) then
        (if t ≠ "table" then cl.filter (fun c => decide (c ≠ t)) else cl)
       else (if t ≠ "table" then cl.filter (fun c => decide (c ≠ t)) else cl) ++ [b]) := by
  obtain ⟨hn, hm⟩ := hc
  have hbcl : b ∉ cl := by rw [hm]; rintro (h | h); exacts [hb1 h, hb h.1]
  have hbs : b ∉ pat.map (·.2) := by
    intro h
    obtain ⟨⟨x, y⟩, h1, rfl⟩ := List.mem_map.1 h
    rcases build_support hB x y h1 with h2 | h2
    · exact hb1 h2
    · exact hb h2
  have hbt : b ≠ t := by rintro rfl; exact hbcl ht
  by_cases h0 : t = "table"
  · subst h0
    simp only [ne_eq, not_true_eq_false, if_false, hbcl]
    refine ⟨List.nodup_append.2 ⟨hn, by simp, by intro a ha b' hb' he; simp at hb'; subst hb'; subst he; exact hbcl ha⟩, ?_⟩
    intro x
    simp only [List.mem_append, List.mem_singleton, hm, List.map_append, List.map_cons, List.map_nil]
    grind
  · have : b ∉ cl.filter (fun c => decide (c ≠ t)) := fun h => hbcl (List.mem_of_mem_filter h)
    simp only [ne_eq, h0, not_false_eq_true, if_true]
    rw [if_neg (by simpa using this)]
    refine ⟨List.nodup_append.2 ⟨hn.filter _, by simp, by intro a ha b' hb' he; simp at hb'; subst hb'; subst he; exact this (by simpa using ha)⟩, ?_⟩
    intro x
    simp only [List.mem_append, List.mem_singleton, List.mem_filter, hm, List.map_append, List.map_cons, List.map_nil,
      decide_eq_true_eq]
    grind

theorem bwLoop_build (pick : Nat → Nat) : ∀ (bs : List String) (k : Nat) (cl : List String) (pat : List (String × String)),
    Build pat → ClearIn pat cl → (pat.map (·.1) ++ bs).Nodup → "table" ∉ bs →
    Build (bwLoop pick k bs cl pat).2 ∧ ClearIn (bwLoop pick k bs cl pat).2 (bwLoop pick k bs cl pat).1 ∧
      (bwLoop pick k bs cl pat).2.map (·.1) = pat.map (·.1) ++ bs
  | [], k, cl, pat, hB, hc, hn, ht => by simp [bwLoop, hB, hc]
  | b :: bs, k, cl, pat, hB, hc, hn, ht => by
    rw [bwLoop]
    have hpos : 0 < cl.length := List.length_pos_of_mem ((hc.2 "table").2 (.inl rfl))
    have htm : cl.getD (pick k % cl.length) "" ∈ cl := by
      rw [List.getD_eq_getElem?_getD, List.getElem?_eq_getElem (Nat.mod_lt _ hpos)]; exact List.getElem_mem _
    have hb1 : b ≠ "table" := by rintro rfl; exact ht (.head _)
    have hb : b ∉ pat.map (·.1) := by
      intro h
      have := (List.nodup_append.1 hn).2.2
      exact this b h b (.head _) rfl
    have hB' : Build (pat ++ [(b, cl.getD (pick k % cl.length) "")]) := .snoc pat b _ hB hb1 hb ((hc.2 _).1 htm)
    have hc' := clearIn_step hB hb1 hb hc htm
    have := bwLoop_build pick bs (k + 1) _ _ hB' hc' (by simpa using hn) (fun h => ht (.tail _ h))
    simp only [List.map_append, List.map_cons, List.map_nil, List.append_assoc, List.singleton_append] at this
    exact this

theorem clearIn_nil : ClearIn [] ["table"] := ⟨by simp, by simp⟩

theorem pattern_build (consts : List String) (hn : consts.Nodup) (shuffle : List String → List String)
    (hs : ∀ l, (shuffle l).Perm l) (pick : Nat → Nat) :
    Build (bwPattern consts shuffle pick).2 ∧
    ClearIn (bwPattern consts shuffle pick).2 (bwPattern consts shuffle pick).1 ∧
    ((bwPattern consts shuffle pick).2.map (·.1)).Perm (consts.filter (fun x => decide (x ≠ "table"))) := by
  have hp := hs (consts.filter (fun x => decide (x ≠ "table")))
  have := bwLoop_build pick (shuffle (consts.filter (fun x => decide (x ≠ "table")))) 0 ["table"] [] .nil clearIn_nil
    (by simpa using hp.nodup_iff.2 (hn.filter _)) (by rw [hp.mem_iff]; simp)
  refine ⟨this.1, this.2.1, ?_⟩
  unfold bwPattern
  rw [this.2.2]
  simpa using hp

/-- C76: whatever the shuffle and the choices drawn, the generated pattern is a configuration of the blocks, and the set
returned with it consists of the table and of the blocks that carry no block. -/
theorem C76_pattern (consts : List String) (hn : consts.Nodup) (shuffle : List String → List String)
    (hs : ∀ l, (shuffle l).Perm l) (pick : Nat → Nat) :
    BWConfig (consts.filter (fun x => decide (x ≠ "table"))) (bwPattern consts shuffle pick).2 ∧
    ∀ x, x ∈ (bwPattern consts shuffle pick).1 ↔
      x = "table" ∨ (x ∈ consts ∧ ∀ z, (z, x) ∉ (bwPattern consts shuffle pick).2) := by
  obtain ⟨h1, h2, h3⟩ := pattern_build consts hn shuffle hs pick
  refine ⟨build_config h1 h3, fun x => ?_⟩
  rw [h2.2, h3.mem_iff]
  by_cases hx : x = "table"
  · simp [hx]
  · simp [hx]

/-- C76: `compute_clear_from_pattern` computes, for any list of locations, the table and the constants on which nothing
stands; on a generated pattern this is the set that was returned with the pattern. -/
theorem C76_clear (consts : List String) (pat : List (String × String)) (x : String) :
    x ∈ bwClear consts pat ↔ x = "table" ∨ (x ∈ consts ∧ ∀ z, (z, x) ∉ pat) := by
  have h : x ∈ consts.filter (fun x => decide (x ∉ pat.map (·.2))) ↔ x ∈ consts ∧ ∀ z, (z, x) ∉ pat := by simp
  unfold bwClear
  simp only
  split
  · rename_i ht
    rw [h]
    constructor
    · exact .inr
    · rintro (rfl | h')
      · exact h.1 ht
      · exact h'
  · rw [List.mem_append, h]; simp [or_comm]

/-! Every configuration can be drawn. -/

theorem config_clear_block {blocks pat} (hc : BWConfig blocks pat) (hne : pat ≠ []) :
    ∃ b t, (b, t) ∈ pat ∧ ∀ z, (z, b) ∉ pat := by
  classical
  let S := {x // x ∈ pat.map (·.1)}
  let R : S → S → Prop := fun a b => Relation.TransGen (fun a b => (a, b) ∈ pat) a.1 b.1
  have : Std.Irrefl R := ⟨fun a h => hc.acyclic a.1 h⟩
  have : IsTrans S R := ⟨fun a b c h1 h2 => h1.trans h2⟩
  have : Finite S := (List.finite_toSet (pat.map (·.1))).to_subtype
  have wf : WellFounded R := Finite.wellFounded_of_trans_of_irrefl R
  obtain ⟨⟨x, y⟩, hxy⟩ := List.exists_mem_of_ne_nil _ hne
  obtain ⟨⟨b, hb⟩, -, hmin⟩ := wf.has_min Set.univ ⟨⟨x, List.mem_map_of_mem (f := (·.1)) hxy⟩, trivial⟩
  obtain ⟨⟨b', t⟩, h1, h2⟩ := List.mem_map.1 hb
  simp only at h2
  subst h2
  refine ⟨b', t, h1, fun z hz => ?_⟩
  exact hmin ⟨z, List.mem_map_of_mem (f := (·.1)) hz⟩ trivial (Relation.TransGen.single hz)

theorem config_build : ∀ (n : Nat) (blocks : List String) (pat : List (String × String)), pat.length = n →
    "table" ∉ blocks → blocks.Nodup → BWConfig blocks pat → ∃ l, Build l ∧ l.Perm pat
  | 0, blocks, pat, hl, _, _, _ => by
    have : pat = [] := List.eq_nil_of_length_eq_zero hl
    subst this; exact ⟨[], .nil, .refl _⟩
  | n + 1, blocks, pat, hl, ht, hn, hc => by
    obtain ⟨b, t, hbt, hclear⟩ := config_clear_block hc (by rintro rfl; simp at hl)
    have hper : pat.Perm ((b, t) :: pat.erase (b, t)) := List.perm_cons_erase hbt
    have hfst : ((pat.erase (b, t)).map (·.1)).Perm (blocks.erase b) := by
      have h1 := (hper.map (·.1)).symm.trans hc.once
      simp only [List.map_cons] at h1
      have := h1.erase b
      simpa using this
    have hsub : ∀ p, p ∈ pat.erase (b, t) → p ∈ pat := fun p hp => List.mem_of_mem_erase hp
    have hbb : b ∈ blocks := hc.once.mem_iff.1 (List.mem_map_of_mem (f := (·.1)) hbt)
    have hcfg : BWConfig (blocks.erase b) (pat.erase (b, t)) := by
      refine ⟨hfst, ?_, fun x x' y h1 h2 => hc.single x x' y (hsub _ h1) (hsub _ h2), ?_⟩
      · intro x y hxy
        rcases hc.support x y (hsub _ hxy) with h | h
        · exact .inl h
        · refine .inr ((List.mem_erase_of_ne ?_).2 h)
          rintro rfl
          exact hclear x (hsub _ hxy)
      · intro x hx
        exact hc.acyclic x (Relation.TransGen.mono (fun a b h => hsub _ h) _ _ hx)
    obtain ⟨l, h1, h2⟩ := config_build n (blocks.erase b) (pat.erase (b, t))
      (by rw [List.length_erase_of_mem hbt, hl]; rfl) (fun h => ht (List.mem_of_mem_erase h)) (hn.erase b) hcfg
    have hl1 : ∀ x, x ∈ l.map (·.1) ↔ x ∈ blocks.erase b := fun x => ((h2.map (·.1)).trans hfst).mem_iff
    refine ⟨l ++ [(b, t)], .snoc l b t h1 (by rintro rfl; exact ht hbb) ?_ ?_, ?_⟩
    · rw [hl1]; exact hn.not_mem_erase
    · rcases hc.support b t hbt with h | h
      · exact .inl h
      · refine .inr ⟨?_, ?_⟩
        · rw [hl1, List.mem_erase_of_ne]
          · exact h
          · rintro rfl; exact hclear _ hbt
        · intro hm
          obtain ⟨⟨x, y⟩, h3, h4⟩ := List.mem_map.1 hm
          simp only at h4
          subst h4
          have h5 := h2.mem_iff.1 h3
          rcases hc.single x b y (hsub _ h5) hbt with h6 | h6
          · subst h6; exact ht h
          · subst h6
            have h8 : x ∈ (pat.erase (x, y)).map (·.1) := List.mem_map_of_mem (f := (·.1)) h5
            rw [hfst.mem_iff] at h8
            exact hn.not_mem_erase h8
    · exact (List.perm_append_comm.trans (h2.cons _)).trans hper.symm

theorem bwLoop_congr (p q : Nat → Nat) : ∀ (bs : List String) (k : Nat) (cl pat), (∀ j, k ≤ j → p j = q j) →
    bwLoop p k bs cl pat = bwLoop q k bs cl pat
  | [], k, cl, pat, _ => rfl
  | b :: bs, k, cl, pat, h => by
    rw [bwLoop, bwLoop, h k (Nat.le_refl _)]
    exact bwLoop_congr p q bs (k + 1) _ _ (fun j hj => h j (by omega))

theorem build_prefix : ∀ {a : List (String × String)} (r : List (String × String)), Build (a ++ r) → Build a := by
  intro a r
  induction r using List.reverseRecOn with
  | nil => intro h; simpa using h
  | append_singleton r x ih =>
    intro h
    rw [← List.append_assoc] at h
    generalize hg : a ++ r ++ [x] = g at h
    cases h with
    | nil => simp at hg
    | snoc pat b t hp _ _ _ =>
      have := List.append_inj' hg rfl
      exact ih (by rw [this.1]; exact hp)

theorem build_last {pat b t} (h : Build (pat ++ [(b, t)])) :
    b ≠ "table" ∧ b ∉ pat.map (·.1) ∧ (t = "table" ∨ (t ∈ pat.map (·.1) ∧ t ∉ pat.map (·.2))) := by
  generalize hg : pat ++ [(b, t)] = g at h
  cases h with
  | nil => simp at hg
  | snoc pat' b' t' _ h1 h2 h3 =>
    have := List.append_inj' hg rfl
    simp only [List.cons.injEq, Prod.mk.injEq, and_true] at this
    obtain ⟨rfl, rfl, rfl⟩ := this
    exact ⟨h1, h2, h3⟩

theorem bwLoop_complete : ∀ (rest : List (String × String)) (acc : List (String × String)) (cl : List String) (k : Nat),
    Build (acc ++ rest) → ClearIn acc cl → ∃ pick, (bwLoop pick k (rest.map (·.1)) cl acc).2 = acc ++ rest
  | [], acc, cl, k, _, _ => ⟨fun _ => 0, by simp [bwLoop]⟩
  | (b, t) :: rest, acc, cl, k, hB, hc => by
    have hB1 : Build (acc ++ [(b, t)]) := build_prefix rest (by simpa using hB)
    have hBa : Build acc := build_prefix _ hB1
    obtain ⟨hb1, hb, ht⟩ := build_last hB1
    have htm : t ∈ cl := (hc.2 t).2 ht
    have hc' := clearIn_step hBa hb1 hb hc htm
    obtain ⟨pick, hp⟩ := bwLoop_complete rest (acc ++ [(b, t)]) _ (k + 1) (by simpa using hB) hc'
    refine ⟨fun j => if j = k then cl.idxOf t else pick j, ?_⟩
    have hi : cl.idxOf t < cl.length := List.idxOf_lt_length_of_mem htm
    have hg : cl.getD (cl.idxOf t % cl.length) "" = t := by
      rw [Nat.mod_eq_of_lt hi, List.getD_eq_getElem?_getD, List.getElem?_eq_getElem hi]; exact List.getElem_idxOf hi
    simp only [List.map_cons, bwLoop, if_true, hg]
    rw [bwLoop_congr _ pick _ (k + 1) _ _ (fun j hj => by simp [show j ≠ k by omega])]
    rw [hp]
    simp

/-- C76: every configuration of the blocks is drawn (up to the order in which its pairs are listed) for some shuffle
and some choices. -/
theorem C76_complete (consts : List String) (hn : consts.Nodup) (pat : List (String × String))
    (hc : BWConfig (consts.filter (fun x => decide (x ≠ "table"))) pat) :
    ∃ (shuffle : List String → List String) (pick : Nat → Nat), (∀ l, (shuffle l).Perm l) ∧
      (bwPattern consts shuffle pick).2.Perm pat := by
  obtain ⟨l, h1, h2⟩ := config_build _ _ pat rfl (by simp) (hn.filter _) hc
  obtain ⟨pick, hp⟩ := bwLoop_complete l [] ["table"] 0 (by simpa using h1) clearIn_nil
  refine ⟨fun b => if b = consts.filter (fun x => decide (x ≠ "table")) then l.map (·.1) else b, pick, ?_, ?_⟩
  · intro b
    dsimp only
    split
    · rename_i h; subst h; exact (h2.map _).trans hc.once
    · exact .refl _
  · unfold bwPattern
    simp only [if_true]
    rw [hp]
    simpa using h2

/-! ### Non-vacuity -/

example : bwPattern ["b1", "b2", "b3"] List.reverse (fun k => k) =
    (["table", "b2", "b1"], [("b3", "table"), ("b2", "b3"), ("b1", "table")]) := by decide

example : BWConfig ["b1", "b2", "b3"] [("b1", "b2"), ("b2", "table"), ("b3", "table")] := by
  have := build_config (blocks := ["b1", "b2", "b3"]) (pat := [("b2", "table"), ("b1", "b2"), ("b3", "table")])
    (.snoc [("b2", "table"), ("b1", "b2")] _ _ (.snoc [("b2", "table")] _ _ (.snoc [] _ _ .nil (by decide) (by decide) (.inl rfl))
      (by decide) (by decide) (.inr (by decide))) (by decide) (by decide) (.inl rfl)) (by decide)
  refine ⟨by decide, by intro x y h; simp at h ⊢; tauto, fun x x' y h1 h2 => this.single x x' y ?_ ?_,
    fun x h => this.acyclic x (Relation.TransGen.mono ?_ _ _ h)⟩
  · simp at h1 ⊢; tauto
  · simp at h2 ⊢; tauto
  · intro a b h; simp at h ⊢; tauto

example : ¬ BWConfig ["b1", "b2"] [("b1", "b2"), ("b2", "b1")] :=
  fun h => h.acyclic "b1" ((Relation.TransGen.single (by simp)).tail (b := "b2") (by simp))

end Tarski

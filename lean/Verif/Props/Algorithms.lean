import Verif.Algorithms
import Mathlib.Logic.Relation
import Mathlib.Data.List.Nodup
import Mathlib.Data.List.Perm.Subperm
import Mathlib.Data.List.Range
/-! C34 and C35. -/
namespace Tarski
variable {α : Type} [DecidableEq α]

/-! ### C34 -/

theorem mem_tcStep (c : Finset (α × α)) (a b : α) :
    (a, b) ∈ tcStep c ↔ (a, b) ∈ c ∨ ∃ m, (a, m) ∈ c ∧ (m, b) ∈ c := by
  simp only [tcStep, Finset.mem_union, Finset.mem_image, Finset.mem_filter, Finset.mem_product, Prod.exists,
    Prod.mk.injEq]
  constructor
  · rintro (h | ⟨x, y, q, w, ⟨⟨h1, h2⟩, h3⟩, rfl, rfl⟩)
    · exact Or.inl h
    · subst h3; exact Or.inr ⟨q, h1, h2⟩
  · rintro (h | ⟨m, h1, h2⟩)
    · exact Or.inl h
    · exact Or.inr ⟨a, m, m, b, ⟨⟨h1, h2⟩, rfl⟩, rfl, rfl⟩

theorem tcLoop_spec (c : Finset (α × α)) :
    c ⊆ tcLoop c ∧ (∀ a m b, (a, m) ∈ tcLoop c → (m, b) ∈ tcLoop c → (a, b) ∈ tcLoop c) ∧
    ∀ T : α → α → Prop, (∀ a b, (a, b) ∈ c → T a b) → (∀ a m b, T a m → T m b → T a b) →
      ∀ a b, (a, b) ∈ tcLoop c → T a b := by
  fun_induction tcLoop c with
  | case1 c h =>
    have e : tcStep c = c := (Finset.eq_of_subset_of_card_le (tcStep_subset c) (le_of_eq h)).symm
    refine ⟨fun _ h => h, fun a m b h1 h2 => ?_, fun T hT _ a b h => hT a b h⟩
    rw [← e, mem_tcStep]; exact Or.inr ⟨m, h1, h2⟩
  | case2 c h ih =>
    refine ⟨fun p hp => ih.1 (tcStep_subset c hp), ih.2.1, fun T hT htr => ih.2.2 T ?_ htr⟩
    intro a b hab
    rw [mem_tcStep] at hab
    rcases hab with h | ⟨m, h1, h2⟩
    · exact hT a b h
    · exact htr a m b (hT a m h1) (hT m b h2)

/-- C34: `transitive_closure(R)` terminates (it is a total function here) and relates `a` to `b` exactly if there is
a non-empty `R`-path from `a` to `b`. -/
theorem C34_transitiveClosure (R : Finset (α × α)) (a b : α) :
    (a, b) ∈ transitiveClosure R ↔ Relation.TransGen (fun x y => (x, y) ∈ R) a b := by
  have h := tcLoop_spec R
  constructor
  · exact h.2.2 (Relation.TransGen fun x y => (x, y) ∈ R) (fun a b h => Relation.TransGen.single h) (fun _ _ _ h1 h2 => h1.trans h2) a b
  · intro hp
    induction hp with
    | single h1 => exact h.1 h1
    | tail _ h1 ih => exact h.2.1 _ _ _ ih (h.1 h1)

example : transitiveClosure ({(1, 2), (2, 3), (3, 1)} : Finset (Nat × Nat)) =
    {(1, 2), (2, 3), (3, 1), (1, 3), (2, 1), (3, 2), (1, 1), (2, 2), (3, 3)} := by
  simp only [transitiveClosure]
  rw [tcLoop, if_neg (by decide), tcLoop, if_neg (by decide), tcLoop, if_pos (by decide)]
  decide

/-! ### C35 -/

/-- A path with `n` edges of the relation. -/
inductive Path (R : List (α × α)) : Nat → α → α → Prop
  | nil (a) : Path R 0 a a
  | snoc {n a b c} : Path R n a b → (b, c) ∈ R → Path R (n + 1) a c

/-- The length of a shortest path from some element of `c1s` to some element of `c2s`. -/
def IsMinDistance (c1s : List α) (R : List (α × α)) (c2s : List α) (n : Nat) : Prop :=
  (∃ a ∈ c1s, ∃ b ∈ c2s, Path R n a b) ∧ ∀ m, ∀ a ∈ c1s, ∀ b ∈ c2s, Path R m a b → n ≤ m

/-- Invariant of the inner loop: the table only decreases, updated entries are one more than an entry that does not
change, and nodes whose entry changed are queued. -/
theorem relaxAll_spec (s : α) :
    ∀ (ts : List α) (d : α → Nat) (q : List α),
      (∀ x, (relaxAll s (d s + 1) ts d q).1 x = d x ∨
        (x ∈ ts ∧ (relaxAll s (d s + 1) ts d q).1 x = d s + 1 ∧ d s + 1 < d x ∧
          x ∈ (relaxAll s (d s + 1) ts d q).2)) ∧
      (∀ x ∈ q, x ∈ (relaxAll s (d s + 1) ts d q).2) ∧
      ∀ t ∈ ts, (relaxAll s (d s + 1) ts d q).1 t ≤ d s + 1 := by
  intro ts
  induction ts with
  | nil => intro d q; simp [relaxAll]
  | cons t ts ih =>
    intro d q
    simp only [relaxAll]
    split
    · rename_i hlt
      have hts : t ≠ s := fun e => by subst e; omega
      have hs : setDist d t (d s + 1) s = d s := by simp [setDist, Ne.symm hts]
      obtain ⟨i1, i2, i3⟩ := ih (setDist d t (d s + 1)) (q ++ [t])
      rw [hs] at i1 i2 i3
      refine ⟨fun x => ?_, fun x hx => i2 x (by simp [hx]), ?_⟩
      · rcases i1 x with h | ⟨h1, h2, h3, h4⟩
        · rw [h]
          by_cases hx : x = t
          · subst hx
            exact Or.inr ⟨by simp, by simp [setDist], hlt, i2 x (by simp)⟩
          · left; simp [setDist, hx]
        · by_cases hx : x = t
          · subst hx; simp [setDist] at h3
          · right; simp only [setDist, hx, if_false] at h3
            exact ⟨by simp [h1], h2, h3, h4⟩
      · intro x hx
        rcases List.mem_cons.1 hx with rfl | hx
        · rcases i1 x with h | ⟨_, h2, _⟩
          · rw [h]; simp [setDist]
          · rw [h2]
        · exact i3 x hx
    · rename_i hlt
      obtain ⟨i1, i2, i3⟩ := ih d q
      refine ⟨fun x => ?_, i2, fun x hx => ?_⟩
      · rcases i1 x with h | ⟨h1, h2⟩
        · exact Or.inl h
        · exact Or.inr ⟨by simp [h1], h2⟩
      · rcases List.mem_cons.1 hx with rfl | hx
        · rcases i1 x with h | ⟨_, h2, _⟩ <;> omega
        · exact i3 x hx

theorem mem_adjacent (R : List (α × α)) (s t : α) : t ∈ adjacent R s ↔ (s, t) ∈ R := by
  simp only [adjacent, List.mem_map, List.mem_filter, decide_eq_true_eq, Prod.exists, exists_eq_right, exists_eq_right_right]

/-- Invariant of the search: finite entries are lengths of paths; nodes not queued have their edges relaxed. -/
theorem distLoop_spec (R : List (α × α)) (c1s : List α) (d : α → Nat) (q : List α)
    (h0 : ∀ x, d x ≤ sysMaxsize) (h1 : ∀ x, d x = sysMaxsize ∨ ∃ a ∈ c1s, Path R (d x) a x)
    (h2 : ∀ x y, (x, y) ∈ R → x ∉ q → d y ≤ d x + 1) (h3 : ∀ x ∈ c1s, d x = 0) :
    (∀ x, distLoop R d q x ≤ sysMaxsize) ∧
    (∀ x, distLoop R d q x = sysMaxsize ∨ ∃ a ∈ c1s, Path R (distLoop R d q x) a x) ∧
    (∀ x y, (x, y) ∈ R → distLoop R d q y ≤ distLoop R d q x + 1) ∧
    ∀ x ∈ c1s, distLoop R d q x = 0 := by
  fun_induction distLoop R d q with
  | case1 d => exact ⟨h0, h1, fun x y h => h2 x y h (by simp), h3⟩
  | case2 d s q ih =>
    obtain ⟨i1, i2, i3⟩ := relaxAll_spec s (adjacent R s) d q
    have hle : ∀ x, (relaxAll s (d s + 1) (adjacent R s) d q).1 x ≤ d x := by
      intro x; rcases i1 x with h | ⟨_, h, h', _⟩ <;> omega
    have hs : (relaxAll s (d s + 1) (adjacent R s) d q).1 s = d s := by
      rcases i1 s with h | ⟨_, h, h', _⟩
      · exact h
      · omega
    apply ih
    · intro x; exact Nat.le_trans (hle x) (h0 x)
    · intro x
      rcases i1 x with h | ⟨hx, h, h', _⟩
      · rw [h]; exact h1 x
      · right
        rcases h1 s with e | ⟨a, ha, hp⟩
        · have := h0 x; omega
        · rw [h]; exact ⟨a, ha, Path.snoc hp ((mem_adjacent R s x).1 hx)⟩
    · intro x y hxy hx
      by_cases e : x = s
      · subst e
        rw [hs]; exact i3 y ((mem_adjacent R x y).2 hxy)
      · rcases i1 x with h | ⟨_, _, _, h4⟩
        · rw [h]
          exact Nat.le_trans (hle y) (h2 x y hxy (by simp [e]; exact fun h => hx (i2 x h)))
        · exact absurd h4 hx
    · intro x hx; have := hle x; have := h3 x hx; omega

theorem minOver_spec (l : List Nat) : ∀ m, minOver m l ≤ m ∧ (∀ x ∈ l, minOver m l ≤ x) ∧ minOver m l ∈ m :: l := by
  induction l with
  | nil => intro m; simp [minOver]
  | cons y l ih =>
    intro m
    obtain ⟨h1, h2, h3⟩ := ih (if y < m then y else m)
    simp only [minOver]
    refine ⟨?_, ?_, ?_⟩
    · split at h1 <;> rename_i hc <;> simp only [hc, if_true, if_false] at h1 ⊢ <;> omega
    · intro x hx
      rcases List.mem_cons.1 hx with rfl | hx
      · split at h1 <;> rename_i hc <;> simp only [hc, if_true, if_false] at h1 ⊢ <;> omega
      · exact h2 x hx
    · rcases List.mem_cons.1 h3 with h | h
      · rw [h]; split <;> simp
      · simp [h]

/-- What the function returns in terms of the final table. -/
theorem computeMinDistance_spec (c1s : List α) (R : List (α × α)) (c2s : List α) :
    computeMinDistance c1s R c2s ≤ sysMaxsize ∧
    (computeMinDistance c1s R c2s = sysMaxsize ∨
      ∃ a ∈ c1s, ∃ b ∈ c2s, Path R (computeMinDistance c1s R c2s) a b) ∧
    ∀ m, ∀ a ∈ c1s, ∀ b ∈ c2s, Path R m a b → computeMinDistance c1s R c2s ≤ m := by
  unfold computeMinDistance
  split
  · rename_i h
    simp only [List.any_eq_true, decide_eq_true_eq] at h
    obtain ⟨x, hx1, hx2⟩ := h
    exact ⟨Nat.zero_le _, Or.inr ⟨x, hx1, x, hx2, Path.nil x⟩, fun _ _ _ _ _ _ => Nat.zero_le _⟩
  · rename_i hd
    simp only [List.any_eq_true, decide_eq_true_eq, not_exists, not_and] at hd
    split
    · rename_i h
      refine ⟨Nat.le_refl _, Or.inl rfl, fun m a ha b hb hp => ?_⟩
      exfalso
      simp only [Bool.or_eq_true, List.isEmpty_iff] at h
      rcases h with (rfl | rfl) | rfl
      · cases ha
      · cases hb
      · cases hp with
        | nil => exact hd a ha hb
        | snoc _ h => cases h
    · have key := distLoop_spec R c1s (fun x => if x ∈ c1s then 0 else sysMaxsize) c1s
        (by intro x; split <;> simp)
        (by
          intro x; split
          · rename_i h; exact Or.inr ⟨x, h, Path.nil x⟩
          · exact Or.inl rfl)
        (by
          intro x y _ hx; simp only [hx, if_false]; split
          · exact Nat.zero_le _
          · exact Nat.le_succ _)
        (by intro x hx; simp [hx])
      generalize distLoop R (fun x => if x ∈ c1s then 0 else sysMaxsize) c1s = d at key
      obtain ⟨k0, k1, k2, k3⟩ := key
      have kp : ∀ m a b, a ∈ c1s → Path R m a b → d b ≤ m := by
        intro m a b ha hp
        induction hp with
        | nil => exact Nat.le_of_eq (k3 _ ha)
        | snoc _ he ih => exact Nat.le_trans (k2 _ _ he) (Nat.add_le_add_right (ih ha) 1)
      cases c2s with
      | nil => exact ⟨Nat.le_refl _, Or.inl rfl, fun _ _ _ b hb => by cases hb⟩
      | cons o os =>
        dsimp only
        obtain ⟨m1, m2, m3⟩ := minOver_spec (os.map d) (d o)
        have m3' : ∃ b ∈ o :: os, minOver (d o) (os.map d) = d b := by
          rcases List.mem_cons.1 m3 with h | h
          · exact ⟨o, by simp, h⟩
          · obtain ⟨b, hb, e⟩ := List.mem_map.1 h; exact ⟨b, by simp [hb], e.symm⟩
        obtain ⟨b, hb, e⟩ := m3'
        refine ⟨Nat.le_trans m1 (k0 o), ?_, ?_⟩
        · rw [e]
          rcases k1 b with h | ⟨a, ha, hp⟩
          · exact Or.inl h
          · exact Or.inr ⟨a, ha, b, hb, hp⟩
        · intro m a ha b' hb' hp
          have h1 : minOver (d o) (os.map d) ≤ d b' := by
            rcases List.mem_cons.1 hb' with rfl | h
            · exact m1
            · exact m2 _ (List.mem_map_of_mem h)
          exact Nat.le_trans h1 (kp m a b' ha hp)

omit [DecidableEq α] in
/-- Along a shortest path every intermediate length is the least one of some endpoint of an edge, so the path is no
longer than the relation. -/
theorem shortest_le_edges (c1s : List α) (R : List (α × α)) (b : α) (n : Nat) (a : α) (ha : a ∈ c1s)
    (hp : Path R n a b) (hmin : ∀ m, ∀ a' ∈ c1s, Path R m a' b → n ≤ m) : n ≤ R.length := by
  have key : ∀ n a b, a ∈ c1s → Path R n a b → (∀ m, ∀ a' ∈ c1s, Path R m a' b → n ≤ m) →
      ∃ f : Nat → α, ∀ k, 1 ≤ k → k ≤ n → f k ∈ R.map Prod.snd ∧ (∃ a' ∈ c1s, Path R k a' (f k)) ∧
        ∀ m, ∀ a' ∈ c1s, Path R m a' (f k) → k ≤ m := by
    intro n a b ha hp
    induction hp with
    | nil => intro _; exact ⟨fun _ => a, fun k h1 h2 => by omega⟩
    | @snoc n a b c hp he ih =>
      intro hm
      obtain ⟨f, hf⟩ := ih ha (fun m a' ha' hp' => by
        have := hm (m + 1) a' ha' (Path.snoc hp' he); omega)
      refine ⟨fun k => if k = n + 1 then c else f k, fun k h1 h2 => ?_⟩
      by_cases hk : k = n + 1
      · subst hk; simp only [if_true]
        exact ⟨List.mem_map_of_mem (f := Prod.snd) he, ⟨a, ha, Path.snoc hp he⟩, hm⟩
      · simp only [hk, if_false]; exact hf k h1 (by omega)
  obtain ⟨f, hf⟩ := key n a b ha hp hmin
  have hnd : ((List.range n).map fun k => f (k + 1)).Nodup := by
    refine List.Nodup.map_on ?_ List.nodup_range
    intro i hi j hj e
    simp only [List.mem_range] at hi hj
    obtain ⟨_, ⟨ai, hai, pi⟩, mi⟩ := hf (i + 1) (by omega) (by omega)
    obtain ⟨_, ⟨aj, haj, pj⟩, mj⟩ := hf (j + 1) (by omega) (by omega)
    have e' : f (i + 1) = f (j + 1) := e
    have h1 := mi _ aj haj (e' ▸ pj)
    have h2 := mj _ ai hai (e' ▸ pi)
    omega
  have hsub : ((List.range n).map fun k => f (k + 1)) ⊆ R.map Prod.snd := by
    intro x hx
    obtain ⟨k, hk, rfl⟩ := List.mem_map.1 hx
    simp only [List.mem_range] at hk
    exact (hf (k + 1) (by omega) (by omega)).1
  have := (List.subperm_of_subset hnd hsub).length_le
  simpa using this

theorem minDistance_main (c1s : List α) (R : List (α × α)) (c2s : List α) (hR : R.length < sysMaxsize) :
    (∀ n, n ≠ sysMaxsize → (computeMinDistance c1s R c2s = n ↔ IsMinDistance c1s R c2s n)) ∧
    (computeMinDistance c1s R c2s = sysMaxsize ↔ ∀ m, ∀ a ∈ c1s, ∀ b ∈ c2s, ¬ Path R m a b) := by
  obtain ⟨h0, h1, h2⟩ := computeMinDistance_spec c1s R c2s
  have short : ∀ n, IsMinDistance c1s R c2s n → n < sysMaxsize := by
    rintro n ⟨⟨a, ha, b, hb, hp⟩, hm⟩
    exact Nat.lt_of_le_of_lt (shortest_le_edges c1s R b n a ha hp (fun m a' ha' => hm m a' ha' b hb)) hR
  have huniq : ∀ m n, IsMinDistance c1s R c2s m → IsMinDistance c1s R c2s n → m = n := by
    rintro m n ⟨⟨a, ha, b, hb, hp⟩, hm⟩ ⟨⟨a', ha', b', hb', hp'⟩, hn⟩
    exact Nat.le_antisymm (hm _ a' ha' b' hb' hp') (hn _ a ha b hb hp)
  have hex : ∀ N m, m ≤ N → (∃ a ∈ c1s, ∃ b ∈ c2s, Path R m a b) → ∃ n, IsMinDistance c1s R c2s n := by
    intro N
    induction N with
    | zero =>
      rintro m hm ⟨a, ha, b, hb, hp⟩
      obtain rfl : m = 0 := by omega
      exact ⟨0, ⟨a, ha, b, hb, hp⟩, fun _ _ _ _ _ _ => Nat.zero_le _⟩
    | succ N ih =>
      intro m hm hp
      by_cases hl : ∃ k, k < m ∧ ∃ a ∈ c1s, ∃ b ∈ c2s, Path R k a b
      · obtain ⟨k, hk, hp'⟩ := hl
        exact ih k (by omega) hp'
      · refine ⟨m, hp, fun k a ha b hb hp' => ?_⟩
        by_contra hlt
        exact hl ⟨k, by omega, a, ha, b, hb, hp'⟩
  have hval : ∀ n, IsMinDistance c1s R c2s n → computeMinDistance c1s R c2s = n := by
    rintro n hn
    obtain ⟨⟨a, ha, b, hb, hp⟩, hm⟩ := hn
    have hle := h2 n a ha b hb hp
    rcases h1 with h | ⟨a', ha', b', hb', hp'⟩
    · have := short n ⟨⟨a, ha, b, hb, hp⟩, hm⟩; omega
    · have := hm _ a' ha' b' hb' hp'; omega
  refine ⟨fun n hn => ⟨?_, hval n⟩, ?_, ?_⟩
  · intro e
    rcases h1 with h | ⟨a, ha, b, hb, hp⟩
    · exact absurd (e.symm.trans h) hn
    · rw [e] at hp h2; exact ⟨⟨a, ha, b, hb, hp⟩, h2⟩
  · intro e m a ha b hb hp
    obtain ⟨n, hn⟩ := hex m m (Nat.le_refl _) ⟨a, ha, b, hb, hp⟩
    have := hval n hn; have := short n hn; omega
  · intro hno
    rcases h1 with h | ⟨a, ha, b, hb, hp⟩
    · exact h
    · exact absurd hp (hno _ a ha b hb)

/-- C35: if the relation has fewer than `sys.maxsize` (2⁶³ - 1) pairs, `compute_min_distance(c1, r, c2)` is the length of a
shortest `r`-path from an element of `c1` to one of `c2`, and `sys.maxsize` exactly if there is no such path. The
result does not depend on the order in which the sets are enumerated, since the right-hand sides do not. -/
theorem C35_minDistance (c1s : List α) (R : List (α × α)) (c2s : List α) (hR : R.length < 2 ^ 63 - 1) :
    (∀ n, n ≠ 2 ^ 63 - 1 → (computeMinDistance c1s R c2s = n ↔ IsMinDistance c1s R c2s n)) ∧
    (computeMinDistance c1s R c2s = 2 ^ 63 - 1 ↔ ∀ m, ∀ a ∈ c1s, ∀ b ∈ c2s, ¬ Path R m a b) := by
  have h : sysMaxsize = 2 ^ 63 - 1 := rfl
  rw [← h] at hR ⊢
  exact minDistance_main c1s R c2s hR

/-- A case with a detour: from 1 to 4 the shortest path has two edges. -/
example : IsMinDistance [1] [(1, 2), (2, 3), (3, 4), (1, 5), (5, 4)] [4, 9] 2 ∧
    computeMinDistance [1] [(1, 2), (2, 3), (3, 4), (1, 5), (5, 4)] [4, 9] = 2 := by
  have h : computeMinDistance [1] [(1, 2), (2, 3), (3, 4), (1, 5), (5, 4)] [4, 9] = 2 := by
    simp [computeMinDistance, distLoop, adjacent, relaxAll, setDist, minOver, sysMaxsize]
  exact ⟨((C35_minDistance _ _ _ (by decide)).1 2 (by decide)).1 h, h⟩

example : computeMinDistance [1] [(1, 2), (3, 4)] [4] = 9223372036854775807 := by
  simp [computeMinDistance, distLoop, adjacent, relaxAll, setDist, minOver, sysMaxsize]

end Tarski

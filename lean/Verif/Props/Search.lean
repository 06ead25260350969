import Verif.Search
import Verif.Props.Effects
import Mathlib.Data.List.Nodup
import Mathlib.Data.List.Perm.Subperm
import Mathlib.Data.List.Pairwise
import Mathlib.Tactic.Common
import Mathlib.Logic.Function.Basic
/-! C27: breadth-first search. -/
namespace Tarski
variable {σ ω κ ε : Type}

/-- `Reaches M n s`: `s` can be reached from the initial state in `n` steps. -/
inductive Reaches (M : SearchModel σ ω κ ε) : Nat → σ → Prop
  | init : Reaches M 0 M.init
  | step {n s l o t} : Reaches M n s → M.successors s = .ok l → (o, t) ∈ l → Reaches M (n + 1) t

/-- Equality of states as the search sees it does not confuse states that behave differently: states with the same
key have successors with the same keys, and are goals alike. -/
structure KeyOk (M : SearchModel σ ω κ ε) : Prop where
  succ : ∀ m n s t l l', Reaches M m s → Reaches M n t → M.key s = M.key t → M.successors s = .ok l →
    M.successors t = .ok l' → ∀ o u, (o, u) ∈ l → ∃ o' u', (o', u') ∈ l' ∧ M.key u' = M.key u
  goal : ∀ m n s t, Reaches M m s → Reaches M n t → M.key s = M.key t → M.isGoal s = M.isGoal t

/-- Number of goal states in a list of nodes. -/
def countGoals (M : SearchModel σ ω κ ε) (l : List (σ × Nat)) : Nat :=
  (l.filter fun p => match M.isGoal p.1 with | .ok b => b | .error _ => false).length

theorem countGoals_append (M : SearchModel σ ω κ ε) (l l' : List (σ × Nat)) :
    countGoals M (l ++ l') = countGoals M l + countGoals M l' := by simp [countGoals]

theorem countGoals_pos (M : SearchModel σ ω κ ε) (l : List (σ × Nat)) :
    0 < countGoals M l ↔ ∃ p ∈ l, M.isGoal p.1 = .ok true := by
  simp only [countGoals, List.length_pos_iff_exists_mem, List.mem_filter]
  refine exists_congr fun p => and_congr_right fun _ => ?_
  split <;> rename_i h <;> simp [h]

variable [DecidableEq κ]

theorem addSuccessors_spec (key : σ → κ) (k : Nat) :
    ∀ (l : List (ω × σ)) (op : List (σ × Nat)) (cl : List κ),
      ∃ new : List (σ × Nat), addSuccessors key k l op cl = (op ++ new, cl ++ new.map fun p => key p.1) ∧
        (∀ p ∈ new, p.2 = k + 1 ∧ ∃ o, (o, p.1) ∈ l) ∧
        (∀ o t, (o, t) ∈ l → key t ∈ cl ++ new.map fun p => key p.1) ∧
        (cl.Nodup → (cl ++ new.map fun p => key p.1).Nodup) := by
  intro l
  induction l with
  | nil => intro op cl; exact ⟨[], by simp [addSuccessors], by simp, by simp, by simp⟩
  | cons x l ih =>
    obtain ⟨o, s⟩ := x
    intro op cl
    simp only [addSuccessors]
    split
    · rename_i hin
      obtain ⟨new, h1, h2, h3, h4⟩ := ih op cl
      refine ⟨new, h1, fun p hp => ⟨(h2 p hp).1, (h2 p hp).2.imp fun o' h => by simp [h]⟩, ?_, h4⟩
      intro o' t ht
      rcases List.mem_cons.1 ht with e | ht
      · cases e; exact List.mem_append_left _ hin
      · exact h3 o' t ht
    · rename_i hin
      obtain ⟨new, h1, h2, h3, h4⟩ := ih (op ++ [(s, k + 1)]) (cl ++ [key s])
      refine ⟨(s, k + 1) :: new, by simpa using h1, ?_, ?_, ?_⟩
      · intro p hp
        rcases List.mem_cons.1 hp with rfl | hp
        · exact ⟨rfl, o, by simp⟩
        · exact ⟨(h2 p hp).1, (h2 p hp).2.imp fun o' h => by simp [h]⟩
      · intro o' t ht
        rcases List.mem_cons.1 ht with e | ht
        · cases e; simp
        · simpa using h3 o' t ht
      · intro hn
        have : (cl ++ [key s]).Nodup := by
          rw [List.nodup_append]; exact ⟨hn, by simp, by
            intro a ha b hb e
            rw [List.mem_singleton] at hb
            subst hb; subst e; exact hin ha⟩
        simpa using h4 this

/-- Loop invariant of the search. -/
structure BInv (M : SearchModel σ ω κ ε) (max : Int) (st : BState σ κ) : Prop where
  closed : st.closed = (st.expanded ++ st.openl).map fun p => M.key p.1
  nodup : st.closed.Nodup
  reach : ∀ p ∈ st.expanded ++ st.openl, Reaches M p.2 p.1
  root : (M.init, 0) ∈ st.expanded ++ st.openl
  succ : ∀ p ∈ st.expanded, ∃ l, M.successors p.1 = .ok l ∧
    ∀ o t, (o, t) ∈ l → ∃ q ∈ st.expanded ++ st.openl, M.key q.1 = M.key t ∧ q.2 ≤ p.2 + 1
  sorted : (st.expanded ++ st.openl).Pairwise fun p q => p.2 ≤ q.2
  window : ∀ p ∈ st.openl, ∀ q ∈ st.expanded ++ st.openl, q.2 ≤ p.2 + 1
  goals : st.numGoals = countGoals M st.expanded
  goalsOk : ∀ p ∈ st.expanded, ∃ b, M.isGoal p.1 = .ok b
  nexp : st.nexpansions = st.expanded.length
  iters : st.iterations = st.expanded.length
  limit : 0 ≤ max → (st.nexpansions : Int) ≤ max

omit [DecidableEq κ] in
theorem BInv.initial (M : SearchModel σ ω κ ε) (max : Int) :
    BInv M max ⟨[(M.init, 0)], [M.key M.init], 0, 0, 0, []⟩ where
  closed := by simp
  nodup := by simp
  reach := by simpa using Reaches.init
  root := by simp
  succ := by simp
  sorted := by simp
  window := by simp
  goals := by simp [countGoals]
  goalsOk := by simp
  nexp := by simp
  iters := by simp
  limit := by simp

/-- What holds of a finished search. -/
structure BDone (M : SearchModel σ ω κ ε) (max : Int) (complete : Bool) (st : BState σ κ) : Prop where
  inv : ∃ opn clo it g, BInv M max ⟨opn, clo, it, g, st.nexpansions, st.expanded⟩ ∧
    (complete = true → opn = []) ∧
    (complete = false → 0 ≤ max ∧ (st.nexpansions : Int) = max ∧
      ∃ p, p ∈ opn ∧ ∃ b, M.isGoal p.1 = .ok b ∧ st.numGoals = g + b.toNat) ∧
    (complete = true → st.numGoals = g)

theorem BInv.expand {M : SearchModel σ ω κ ε} {max : Int} {st : BState σ κ} (h : BInv M max st)
    {node : σ × Nat} {rest : List (σ × Nat)} (ho : st.openl = node :: rest) {g : Bool}
    (hg : M.isGoal node.1 = .ok g) (hm : ¬ (0 ≤ max ∧ max ≤ (st.nexpansions : Int)))
    {l : List (ω × σ)} (hl : M.successors node.1 = .ok l) :
    BInv M max
      { openl := (addSuccessors M.key node.2 l rest st.closed).1,
        closed := (addSuccessors M.key node.2 l rest st.closed).2,
        iterations := st.iterations + 1, numGoals := if g then st.numGoals + 1 else st.numGoals,
        nexpansions := st.nexpansions + 1, expanded := st.expanded ++ [node] } := by
  obtain ⟨new, h1, h2, h3, h4⟩ := addSuccessors_spec M.key node.2 l rest st.closed
  have e : (st.expanded ++ [node]) ++ (rest ++ new) = (st.expanded ++ st.openl) ++ new := by simp [ho]
  have hnode : node ∈ st.openl := by simp [ho]
  have hcl : st.closed ++ new.map (fun p => M.key p.1) =
      ((st.expanded ++ st.openl) ++ new).map fun p => M.key p.1 := by
    rw [h.closed]; simp
  rw [h1]
  refine ⟨?_, ?_, ?_, ?_, ?_, ?_, ?_, ?_, ?_, ?_, ?_, ?_⟩ <;> dsimp only
  · rw [e]; exact hcl
  · exact h4 h.nodup
  · rw [e]; intro p hp
    rcases List.mem_append.1 hp with hp | hp
    · exact h.reach p hp
    · obtain ⟨hd, o, hmem⟩ := h2 p hp
      rw [hd]; exact Reaches.step (h.reach node (by simp [ho])) hl hmem
  · rw [e]; exact List.mem_append_left _ h.root
  · rw [e]; intro p hp
    rcases List.mem_append.1 hp with hp | hp
    · obtain ⟨l', hl', hs⟩ := h.succ p hp
      refine ⟨l', hl', fun o t ht => ?_⟩
      obtain ⟨q, hq, hk⟩ := hs o t ht
      exact ⟨q, List.mem_append_left _ hq, hk⟩
    · obtain rfl : p = node := by simpa using hp
      refine ⟨l, hl, fun o t ht => ?_⟩
      have := h3 o t ht
      rw [hcl, List.mem_map] at this
      obtain ⟨q, hq, hk⟩ := this
      refine ⟨q, hq, hk, ?_⟩
      rcases List.mem_append.1 hq with hq | hq
      · exact h.window p hnode q hq
      · exact Nat.le_of_eq (h2 q hq).1
  · rw [e, List.pairwise_append]
    refine ⟨h.sorted, ?_, ?_⟩
    · exact List.pairwise_of_forall_mem_list fun a ha b hb => Nat.le_of_eq ((h2 a ha).1.trans (h2 b hb).1.symm)
    · intro a ha b hb; rw [(h2 b hb).1]; exact h.window node hnode a ha
  · rw [e]; intro p hp q hq
    have hnp : node.2 ≤ p.2 := by
      rcases List.mem_append.1 hp with hp | hp
      · have := h.sorted
        rw [ho, List.pairwise_append, List.pairwise_cons] at this
        exact this.2.1.1 p hp
      · rw [(h2 p hp).1]; omega
    have hqn : q.2 ≤ node.2 + 1 := by
      rcases List.mem_append.1 hq with hq | hq
      · exact h.window node hnode q hq
      · exact Nat.le_of_eq (h2 q hq).1
    omega
  · rw [countGoals_append, ← h.goals]
    cases g <;> simp [countGoals, hg]
  · intro p hp
    rcases List.mem_append.1 hp with hp | hp
    · exact h.goalsOk p hp
    · obtain rfl : p = node := by simpa using hp
      exact ⟨g, hg⟩
  · simp [h.nexp]
  · simp [h.iters]
  · intro h0
    have : ¬ max ≤ (st.nexpansions : Int) := fun hh => hm ⟨h0, hh⟩
    push_cast; omega

theorem bfsLoop_done (M : SearchModel σ ω κ ε) (max : Int) :
    ∀ (fuel : Nat) (st : BState σ κ), BInv M max st → ∀ c st', bfsLoop M max fuel st = some (.ok (c, st')) →
      BDone M max c st' := by
  intro fuel
  induction fuel with
  | zero =>
    intro st h c st' hr
    simp only [bfsLoop] at hr
    split at hr
    · rename_i ho
      simp only [Option.some.injEq, Except.ok.injEq, Prod.mk.injEq] at hr
      obtain ⟨rfl, rfl⟩ := hr
      exact ⟨st.openl, st.closed, st.iterations, st.numGoals, h, fun _ => ho, by simp, fun _ => rfl⟩
    · cases hr
  | succ fuel ih =>
    intro st h c st' hr
    simp only [bfsLoop] at hr
    split at hr
    · rename_i ho
      simp only [Option.some.injEq, Except.ok.injEq, Prod.mk.injEq] at hr
      obtain ⟨rfl, rfl⟩ := hr
      exact ⟨st.openl, st.closed, st.iterations, st.numGoals, h, fun _ => ho, by simp, fun _ => rfl⟩
    · rename_i node rest ho
      split at hr
      · cases hr
      · rename_i g hg
        split at hr
        · rename_i hm
          simp only [Option.some.injEq, Except.ok.injEq, Prod.mk.injEq] at hr
          obtain ⟨rfl, rfl⟩ := hr
          refine ⟨st.openl, st.closed, st.iterations, st.numGoals, h, by simp, fun _ => ⟨hm.1, ?_, node, by simp [ho], g,
            hg, by cases g <;> simp⟩, by simp⟩
          have := h.limit hm.1
          dsimp only; omega
        · rename_i hm
          split at hr
          · cases hr
          · rename_i l hl
            exact ih _ (h.expand ho hg hm hl) c st' hr

theorem bfs_done {M : SearchModel σ ω κ ε} {max : Int} {fuel : Nat} {c : Bool} {st : BState σ κ}
    (h : bfs M max fuel = some (.ok (c, st))) : BDone M max c st :=
  bfsLoop_done M max fuel _ (BInv.initial M max) c st h

/-- C27: whatever the search expands is reachable, no state is expanded twice, the expansions are counted, and there
are at most as many as the limit allows. -/
theorem C27_expands {M : SearchModel σ ω κ ε} {max : Int} {fuel : Nat} {c : Bool} {st : BState σ κ}
    (h : bfs M max fuel = some (.ok (c, st))) :
    (∀ p ∈ st.expanded, Reaches M p.2 p.1) ∧ (st.expanded.map fun p => M.key p.1).Nodup ∧
    st.nexpansions = st.expanded.length ∧ (0 ≤ max → (st.nexpansions : Int) ≤ max) ∧
    (c = false → (st.nexpansions : Int) = max) := by
  obtain ⟨opn, clo, it, g, hi, _, h2, _⟩ := (bfs_done h).inv
  refine ⟨fun p hp => hi.reach p (List.mem_append_left _ hp), ?_, hi.nexp, hi.limit, fun hc => (h2 hc).2.1⟩
  have := hi.nodup
  rw [hi.closed, List.map_append] at this
  exact (List.nodup_append.1 this).1

/-- C27: when the search reports a complete space, every reachable state has been expanded. -/
theorem C27_complete {M : SearchModel σ ω κ ε} (hk : KeyOk M) {max : Int} {fuel : Nat} {st : BState σ κ}
    (h : bfs M max fuel = some (.ok (true, st))) (n : Nat) (s : σ) (hs : Reaches M n s) :
    ∃ p ∈ st.expanded, M.key p.1 = M.key s ∧ p.2 ≤ n := by
  obtain ⟨opn, clo, it, g, hi, h1, _, _⟩ := (bfs_done h).inv
  obtain rfl := h1 rfl
  have hr := hi.root
  have hr2 := hi.reach
  have hsucc := hi.succ
  simp only [List.append_nil] at hr hr2 hsucc
  induction hs with
  | init => exact ⟨_, hr, rfl, Nat.le_refl _⟩
  | @step n s l o t hs hl ht ih =>
    obtain ⟨p, hp, hpk, hpn⟩ := ih
    obtain ⟨l', hl', hq⟩ := hsucc p hp
    obtain ⟨o', u', hu', hk'⟩ := hk.succ _ _ s p.1 l l' hs (hr2 p hp) hpk.symm hl hl' o t ht
    obtain ⟨q, hq1, hq2, hq3⟩ := hq o' u' hu'
    exact ⟨q, hq1, hq2.trans hk', by omega⟩

/-- C27: states are expanded in order of their distance from the initial state, also when the limit stops the search:
the depths of the expanded nodes do not decrease, and each is the least number of steps in which its state can be
reached. -/
theorem C27_levels {M : SearchModel σ ω κ ε} (hk : KeyOk M) {max : Int} {fuel : Nat} {c : Bool} {st : BState σ κ}
    (h : bfs M max fuel = some (.ok (c, st))) :
    (st.expanded.Pairwise fun p q => p.2 ≤ q.2) ∧
    ∀ p ∈ st.expanded, ∀ n s, M.key s = M.key p.1 → Reaches M n s → p.2 ≤ n := by
  obtain ⟨opn, clo, it, g, hi, _, _, _⟩ := (bfs_done h).inv
  have hsort := hi.sorted
  dsimp only at hsort
  rw [List.pairwise_append] at hsort
  refine ⟨hsort.1, fun p hp n s hks hs => ?_⟩
  by_contra hlt
  have key : ∀ n s, Reaches M n s → n < p.2 → ∃ q ∈ st.expanded ++ opn, M.key q.1 = M.key s ∧ q.2 ≤ n := by
    intro n s hs
    induction hs with
    | init => intro _; exact ⟨_, hi.root, rfl, Nat.le_refl _⟩
    | @step n s l o t hs hl ht ih =>
      intro hn
      obtain ⟨v, hv, hvk, hvn⟩ := ih (by omega)
      have hve : v ∈ st.expanded := by
        rcases List.mem_append.1 hv with h | h
        · exact h
        · have := hsort.2.2 p hp v h; omega
      obtain ⟨l', hl', hq⟩ := hi.succ v hve
      obtain ⟨o', u', hu', hk'⟩ := hk.succ _ _ s v.1 l l' hs (hi.reach v hv) hvk.symm hl hl' o t ht
      obtain ⟨q, hq1, hq2, hq3⟩ := hq o' u' hu'
      exact ⟨q, hq1, hq2.trans hk', by omega⟩
  obtain ⟨q, hq, hqk, hqn⟩ := key n s hs (by omega)
  have hnd := hi.nodup
  rw [hi.closed] at hnd
  have : q = p := List.inj_on_of_nodup_map hnd hq (List.mem_append_left _ hp) (hqk.trans hks)
  subst this; omega

/-- C27: the goals. A reported goal is a reachable goal state; if the space is complete, a goal is reported exactly if
a reachable goal state exists, and the number of goals is the number of reachable goal states. -/
theorem C27_goals {M : SearchModel σ ω κ ε} (hk : KeyOk M) {max : Int} {fuel : Nat} {c : Bool} {st : BState σ κ}
    (h : bfs M max fuel = some (.ok (c, st))) :
    (0 < st.numGoals → ∃ n s, Reaches M n s ∧ M.isGoal s = .ok true) ∧
    (c = true → (0 < st.numGoals ↔ ∃ n s, Reaches M n s ∧ M.isGoal s = .ok true) ∧
      st.numGoals = countGoals M st.expanded) := by
  obtain ⟨opn, clo, it, g, hi, h1, h2, h3⟩ := (bfs_done h).inv
  have hg := hi.goals
  dsimp only at hg
  have hfwd : 0 < countGoals M st.expanded → ∃ n s, Reaches M n s ∧ M.isGoal s = .ok true := by
    rw [countGoals_pos]
    rintro ⟨p, hp, hpg⟩
    exact ⟨p.2, p.1, hi.reach p (List.mem_append_left _ hp), hpg⟩
  constructor
  · intro hpos
    cases c with
    | true => rw [h3 rfl, hg] at hpos; exact hfwd hpos
    | false =>
      obtain ⟨_, _, p, hp, b, hb, hbn⟩ := h2 rfl
      cases b with
      | true => exact ⟨p.2, p.1, hi.reach p (List.mem_append_right _ hp), hb⟩
      | false => simp only [Bool.toNat_false, Nat.add_zero] at hbn; rw [hbn, hg] at hpos; exact hfwd hpos
  · rintro rfl
    rw [h3 rfl, hg]
    refine ⟨⟨hfwd, ?_⟩, rfl⟩
    rintro ⟨n, s, hs, hsg⟩
    obtain ⟨p, hp, hpk, _⟩ := C27_complete hk h n s hs
    rw [countGoals_pos]
    refine ⟨p, hp, ?_⟩
    rw [hk.goal _ _ p.1 s (hi.reach p (List.mem_append_left _ hp)) hs hpk]; exact hsg

/-- C27: an exhausted search has counted the goals among the expanded states, and an expansion for each of them. -/
theorem C27_counts {M : SearchModel σ ω κ ε} {max : Int} {fuel : Nat} {st : BState σ κ} (h : bfs M max fuel = some (.ok (true, st))) :
    st.numGoals = countGoals M st.expanded ∧
    st.nexpansions = st.expanded.length := by
  obtain ⟨opn, clo, it, g, hi, -, -, h3⟩ := (bfs_done h).inv
  exact ⟨(h3 rfl).trans hi.goals, hi.nexp⟩

theorem bfsLoop_terminates (M : SearchModel σ ω κ ε) (max : Int) (bound : Nat)
    (hb : ∀ st, BInv M max st → st.openl ≠ [] → st.nexpansions ≤ bound) :
    ∀ (fuel : Nat) (st : BState σ κ), BInv M max st → bound < fuel + st.nexpansions →
      bfsLoop M max fuel st ≠ none := by
  intro fuel
  induction fuel with
  | zero =>
    intro st h hlt
    simp only [bfsLoop]
    split
    · simp
    · rename_i ho
      have := hb st h (by simp [ho])
      omega
  | succ fuel ih =>
    intro st h hlt
    simp only [bfsLoop]
    split
    · simp
    · rename_i node rest ho
      split
      · simp
      · rename_i g hg
        split
        · simp
        · rename_i hm
          split
          · simp
          · rename_i l hl
            exact ih _ (h.expand ho hg hm hl) (by dsimp only; omega)

/-- C27: with a limit the search always stops, after at most one more iteration than the limit. -/
theorem C27_limit_stops (M : SearchModel σ ω κ ε) (max : Int) (h : 0 ≤ max) (fuel : Nat) (hf : max.toNat < fuel) :
    bfs M max fuel ≠ none := by
  refine bfsLoop_terminates M max max.toNat (fun st hi _ => ?_) fuel _ (BInv.initial M max) (by simpa using hf)
  have := hi.limit h
  omega

/-- C27: if the reachable states have finitely many keys, the search stops, whatever the limit. -/
theorem C27_finite_stops (M : SearchModel σ ω κ ε) (max : Int) (K : List κ)
    (hK : ∀ n s, Reaches M n s → M.key s ∈ K) (fuel : Nat) (hf : K.length < fuel) : bfs M max fuel ≠ none := by
  refine bfsLoop_terminates M max K.length (fun st hi _ => ?_) fuel _ (BInv.initial M max) (by simpa using hf)
  have h1 : st.closed ⊆ K := by
    intro k hk
    rw [hi.closed, List.mem_map] at hk
    obtain ⟨p, hp, rfl⟩ := hk
    exact hK _ _ (hi.reach p hp)
  have h2 := (List.subperm_of_subset hi.nodup h1).length_le
  rw [hi.closed] at h2
  simp only [List.length_map, List.length_append] at h2
  rw [hi.nexp]; omega

/-- Extra iterations do not change the result, so "the" result of the search is well defined. -/
theorem C27_deterministic (M : SearchModel σ ω κ ε) (max : Int) :
    ∀ (fuel k : Nat) (st : BState σ κ) r, bfsLoop M max fuel st = some r → bfsLoop M max (fuel + k) st = some r := by
  intro fuel
  induction fuel with
  | zero =>
    intro k st r h
    simp only [bfsLoop] at h
    split at h
    · rename_i ho
      cases k with
      | zero => simp only [Nat.add_zero, bfsLoop, ho]; exact h
      | succ k => simp only [Nat.zero_add, bfsLoop, ho]; exact h
    · cases h
  | succ fuel ih =>
    intro k st r h
    rw [Nat.add_right_comm]
    simp only [bfsLoop] at h ⊢
    split at h
    · rename_i ho; exact h
    · rename_i node rest ho
      split at h
      · rename_i e he; exact h
      · rename_i g hg
        split at h
        · rename_i hm; rw [if_pos hm]; exact h
        · rename_i hm; rw [if_neg hm]
          split at h
          · rename_i e he; exact h
          · rename_i l hl; exact ih k _ r h

/-- An exception leaves the search only if the goal test or the successor function raises it on a reachable state. -/
theorem C27_errors (M : SearchModel σ ω κ ε) (max : Int) (fuel : Nat) (e : ε)
    (h : bfs M max fuel = some (.error e)) :
    ∃ n s, Reaches M n s ∧ (M.isGoal s = .error e ∨ M.successors s = .error e) := by
  have key : ∀ (fuel : Nat) (st : BState σ κ), BInv M max st → bfsLoop M max fuel st = some (.error e) →
      ∃ n s, Reaches M n s ∧ (M.isGoal s = .error e ∨ M.successors s = .error e) := by
    intro fuel
    induction fuel with
    | zero =>
      intro st _ hr
      simp only [bfsLoop] at hr
      split at hr <;> cases hr
    | succ fuel ih =>
      intro st hi hr
      simp only [bfsLoop] at hr
      split at hr
      · cases hr
      · rename_i node rest ho
        have hn : Reaches M node.2 node.1 := hi.reach node (by simp [ho])
        split at hr
        · rename_i e' he
          cases hr
          exact ⟨_, _, hn, Or.inl he⟩
        · rename_i g hg
          split at hr
          · cases hr
          · rename_i hm
            split at hr
            · rename_i e' he
              cases hr
              exact ⟨_, _, hn, Or.inr he⟩
            · rename_i l hl
              exact ih _ (hi.expand ho hg hm hl) hr
  exact key fuel _ (BInv.initial M max) h

/-- C27 when different states have different keys: with no limit and finitely many reachable states, the search
stops; if nothing raises, it has expanded every reachable state exactly once and only those, and reports a goal
exactly if a reachable goal state exists. -/
theorem C27_exact (M : SearchModel σ ω κ ε) (hinj : Function.Injective M.key) (S : List σ)
    (hS : ∀ n s, Reaches M n s → s ∈ S) (hok : ∀ n s, Reaches M n s → (∃ l, M.successors s = .ok l) ∧ ∃ b, M.isGoal s = .ok b)
    (max : Int) (hmax : max < 0) :
    ∃ N st, (∀ fuel, N ≤ fuel → bfs M max fuel = some (.ok (true, st))) ∧
      (st.expanded.map Prod.fst).Nodup ∧ (∀ s, s ∈ st.expanded.map Prod.fst ↔ ∃ n, Reaches M n s) ∧
      st.nexpansions = st.expanded.length ∧ (0 < st.numGoals ↔ ∃ n s, Reaches M n s ∧ M.isGoal s = .ok true) := by
  have hk : KeyOk M := by
    constructor
    · intro m n s t l l' _ _ hst hl hl' o u hu
      have := hinj hst; subst this
      rw [hl] at hl'; cases hl'
      exact ⟨o, u, hu, rfl⟩
    · intro m n s t _ _ hst; rw [hinj hst]
  have hstop := C27_finite_stops M max (S.map M.key) (fun n s h => List.mem_map_of_mem (hS n s h)) (S.length + 1) (by simp)
  cases hr : bfs M max (S.length + 1) with
  | none => exact absurd hr hstop
  | some r =>
    cases r with
    | error e =>
      obtain ⟨n, s, hs, h | h⟩ := C27_errors M max _ e hr
      · obtain ⟨b, hb⟩ := (hok n s hs).2; rw [hb] at h; cases h
      · obtain ⟨b, hb⟩ := (hok n s hs).1; rw [hb] at h; cases h
    | ok r =>
      obtain ⟨c, st⟩ := r
      have hex := C27_expands hr
      have hc : c = true := by
        cases c with
        | true => rfl
        | false => have := hex.2.2.2.2 rfl; omega
      subst hc
      refine ⟨S.length + 1, st, ?_, ?_, ?_, hex.2.2.1, ((C27_goals hk hr).2 rfl).1⟩
      · intro fuel hf
        obtain ⟨k, rfl⟩ := Nat.exists_eq_add_of_le hf
        exact C27_deterministic M max _ k _ _ hr
      · have := hex.2.1
        have e : (st.expanded.map fun p => M.key p.1) = (st.expanded.map Prod.fst).map M.key := by simp
        rw [e] at this
        exact this.of_map _
      · intro s
        rw [List.mem_map]
        constructor
        · rintro ⟨p, hp, rfl⟩; exact ⟨_, hex.1 p hp⟩
        · rintro ⟨n, hs⟩
          obtain ⟨p, hp, hpk, _⟩ := C27_complete hk hr n s hs
          exact ⟨p, hp, hinj hpk⟩

/-- The search counts up to 3 by steps of 1 and 2, with 0 expanded before 1 and 2, and 3 the only goal. -/
def exSearch : SearchModel Nat Nat Nat Err where
  init := 0
  successors := fun s => .ok (([1, 2].filter fun d => s + d ≤ 3).map fun d => (d, s + d))
  isGoal := fun s => .ok (s == 3)
  key := id

example : ∃ st, bfs exSearch (-1) 5 = some (.ok (true, st)) ∧ st.expanded = [(0, 0), (1, 1), (2, 1), (3, 2)] ∧
    st.numGoals = 1 := ⟨_, rfl, rfl, rfl⟩

example : ∃ st, bfs exSearch 2 5 = some (.ok (false, st)) ∧ st.expanded = [(0, 0), (1, 1)] := ⟨_, rfl, rfl⟩

/-- The hypotheses of `C27_exact` are met by that model. -/
example : Function.Injective exSearch.key ∧ (∀ n s, Reaches exSearch n s → s ∈ [0, 1, 2, 3]) ∧
    ∀ n s, Reaches exSearch n s → (∃ l, exSearch.successors s = .ok l) ∧ ∃ b, exSearch.isGoal s = .ok b := by
  refine ⟨fun _ _ h => h, fun n s h => ?_, fun n s _ => ⟨⟨_, rfl⟩, _, rfl⟩⟩
  induction h with
  | init => simp [exSearch]
  | @step n s l o t _ hl ht _ =>
    simp only [exSearch, Except.ok.injEq] at hl
    subst hl
    simp only [List.mem_map, List.mem_filter, Prod.mk.injEq, decide_eq_true_eq] at ht
    obtain ⟨d, ⟨_, h3⟩, _, rfl⟩ := ht
    simp only [List.mem_cons, List.not_mem_nil, or_false]
    omega

/-! ### The model of ground planning problems -/

/-- The successors of a state are the results of the applicable operators, in the order of the operators. -/
theorem mem_groundSuccessors (L : MLang) (dom : Domains) (m : MState) :
    ∀ (ops : List Operator) l, groundSuccessors L dom m ops = .ok l → ∀ o m',
      (o, m') ∈ l ↔ o ∈ ops ∧ isApplicable L m o = .ok true ∧ progress L dom m o.effs = .ok m' := by
  intro ops
  induction ops with
  | nil => intro l h o m'; simp only [groundSuccessors, Except.ok.injEq] at h; subst h; simp
  | cons o ops ih =>
    intro l h o' m'
    simp only [groundSuccessors] at h
    split at h
    · cases h
    · rename_i ha
      rw [ih l h]
      constructor
      · rintro ⟨h1, h2⟩; exact ⟨by simp [h1], h2⟩
      · rintro ⟨h1, h2, h3⟩
        rcases List.mem_cons.1 h1 with rfl | h1
        · rw [ha] at h2; cases h2
        · exact ⟨h1, h2, h3⟩
    · rename_i ha
      split at h
      · cases h
      · rename_i m1 hp
        split at h
        · cases h
        · rename_i l1 hl1
          simp only [Except.ok.injEq] at h
          subst h
          rw [List.mem_cons, ih l1 hl1]
          constructor
          · rintro (e | ⟨h1, h2⟩)
            · cases e; exact ⟨by simp, ha, hp⟩
            · exact ⟨by simp [h1], h2⟩
          · rintro ⟨h1, h2, h3⟩
            rcases List.mem_cons.1 h1 with rfl | h1
            · left; rw [hp] at h3; cases h3; rfl
            · exact Or.inr ⟨h1, h2, h3⟩

/-- Executing one more operator. -/
theorem execPlan_snoc (L : MLang) (dom : Domains) (os : List Operator) :
    ∀ m m1 o m2, execPlan L dom m os = .ok (some m1) → isApplicable L m1 o = .ok true →
      progress L dom m1 o.effs = .ok m2 → execPlan L dom m (os ++ [o]) = .ok (some m2) := by
  induction os with
  | nil =>
    intro m m1 o m2 h ha hp
    simp only [execPlan, Except.ok.injEq, Option.some.injEq] at h; subst h
    simp [execPlan, ha, hp]
  | cons x os ih =>
    intro m m1 o m2 h ha hp
    simp only [execPlan] at h
    simp only [List.cons_append, execPlan]
    split at h
    · cases h
    · cases h
    · rename_i hx
      split at h
      · cases h
      · rename_i m' hm'
        exact ih m' m1 o m2 h ha hp

/-- C27 for planning problems: every state the search can reach is the result of executing a plan made of the given
operators, each applicable where it is applied; and if no state raises, every such result is reachable. -/
theorem C27_plans {κ} (L : MLang) (dom : Domains) (init : MState) (goal : Formula) (ops : List Operator)
    (key : MState → κ) :
    (∀ n m, Reaches (groundSearchModel L dom init goal ops key) n m →
      ∃ os, os.length = n ∧ (∀ o ∈ os, o ∈ ops) ∧ execPlan L dom init os = .ok (some m)) ∧
    ((∀ n m, Reaches (groundSearchModel L dom init goal ops key) n m → ∃ l, groundSuccessors L dom m ops = .ok l) →
      ∀ os, (∀ o ∈ os, o ∈ ops) → ∀ m, execPlan L dom init os = .ok (some m) →
        Reaches (groundSearchModel L dom init goal ops key) os.length m) := by
  constructor
  · intro n m h
    induction h with
    | init => exact ⟨[], rfl, by simp, rfl⟩
    | @step n s l o t _ hl ht ih =>
      obtain ⟨os, rfl, hos, he⟩ := ih
      obtain ⟨h1, h2, h3⟩ := (mem_groundSuccessors L dom s ops l hl o t).1 ht
      refine ⟨os ++ [o], by simp, ?_, execPlan_snoc L dom os _ _ o t he h2 h3⟩
      intro x hx
      rcases List.mem_append.1 hx with hx | hx
      · exact hos x hx
      · obtain rfl : x = o := by simpa using hx
        exact h1
  · intro hok
    have key : ∀ os, (∀ o ∈ os, o ∈ ops) → ∀ n s m, Reaches (groundSearchModel L dom init goal ops key) n s →
        execPlan L dom s os = .ok (some m) → Reaches (groundSearchModel L dom init goal ops key) (n + os.length) m := by
      intro os
      induction os with
      | nil =>
        intro _ n s m hs he
        simp only [execPlan, Except.ok.injEq, Option.some.injEq] at he; subst he; exact hs
      | cons o os ih =>
        intro hos n s m hs he
        simp only [execPlan] at he
        split at he
        · cases he
        · cases he
        · rename_i ha
          split at he
          · cases he
          · rename_i m' hm'
            obtain ⟨l, hl⟩ := hok n s hs
            have hmem := (mem_groundSuccessors L dom s ops l hl o m').2 ⟨hos o (by simp), ha, hm'⟩
            have := ih (fun o' h => hos o' (by simp [h])) (n + 1) m' m (Reaches.step hs hl hmem) he
            simpa [Nat.add_assoc, Nat.add_comm 1] using this
    intro os hos m he
    simpa using key os hos 0 init m Reaches.init he

end Tarski

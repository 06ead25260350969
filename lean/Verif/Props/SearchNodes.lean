import Verif.SearchNodes
import Verif.Props.Search
/-! C125: the nodes of breadth-first search record shortest plans. -/
namespace Tarski
variable {σ ω κ ε : Type}

/-! ### Specification -/

/-- The actions on the way from the root to a node: what following the links `parent` and reading `action` gives, first action first. -/
def SNode.plan : SNode σ ω → List ω
  | .root _ => []
  | .child p a _ => p.plan ++ [a]

/-- Taking the actions one after the other, each among the successors of the state it is taken in, leads from the first state to the
last. -/
inductive Leads (M : SearchModel σ ω κ ε) : σ → List ω → σ → Prop
  | here s : Leads M s [] s
  | next {s a u as t l} : M.successors s = .ok l → (a, u) ∈ l → Leads M u as t → Leads M s (a :: as) t

/-! ### Proof -/

theorem Leads.snoc {M : SearchModel σ ω κ ε} {s as t a u l} (h : Leads M s as t) (hl : M.successors t = .ok l) (ha : (a, u) ∈ l) :
    Leads M s (as ++ [a]) u := by
  induction h with
  | here s => exact .next hl ha (.here _)
  | next hl' ha' _ ih => exact .next hl' ha' (ih hl)

theorem Leads.reaches {M : SearchModel σ ω κ ε} {s as t} (h : Leads M s as t) : ∀ n, Reaches M n s → Reaches M (n + as.length) t := by
  induction h with
  | here s => intro n hn; exact hn
  | next hl ha _ ih =>
    intro n hn
    have := ih (n + 1) (.step hn hl ha)
    rw [List.length_cons, show ∀ k, n + (k + 1) = n + 1 + k by omega]
    exact this

/-- What `Search.lean` keeps of a node. -/
def SNode.shade (n : SNode σ ω) : σ × Nat := (n.state, n.plan.length)

/-- What `Search.lean` keeps of the variables. -/
def NState.shade (st : NState σ ω κ) : BState σ κ :=
  ⟨st.openl.map SNode.shade, st.closed, st.iterations, st.numGoals, st.nexpansions, st.expanded.map SNode.shade⟩

variable [DecidableEq κ]

theorem addChildren_shade (key : σ → κ) (node : SNode σ ω) : ∀ (l : List (ω × σ)) (op : List (SNode σ ω)) (cl : List κ),
    addSuccessors key node.plan.length l (op.map SNode.shade) cl =
      ((addChildren key node l op cl).1.map SNode.shade, (addChildren key node l op cl).2)
  | [], _, _ => rfl
  | (a, s) :: l, op, cl => by
    simp only [addSuccessors, addChildren]
    split
    · exact addChildren_shade key node l op cl
    · rw [← addChildren_shade key node l]
      simp [SNode.shade, SNode.state, SNode.plan]

theorem nodeLoop_shade (M : SearchModel σ ω κ ε) (max : Int) : ∀ (fuel : Nat) (st : NState σ ω κ),
    bfsLoop M max fuel st.shade = (nodeLoop M max fuel st).map (fun r => r.map fun p => (p.1, p.2.shade))
  | 0, st => by
    unfold bfsLoop nodeLoop
    cases h : st.openl <;> simp [NState.shade, h, Except.map]
  | fuel + 1, st => by
    unfold bfsLoop nodeLoop
    cases h : st.openl with
    | nil => simp [NState.shade, h, Except.map]
    | cons node rest =>
      simp only [NState.shade, h, List.map_cons]
      rw [show (SNode.shade node).1 = node.state from rfl, show (SNode.shade node).2 = node.plan.length from rfl]
      cases hg : M.isGoal node.state with
      | error e => simp [Except.map]
      | ok g =>
        dsimp only
        by_cases hm : 0 ≤ max ∧ max ≤ (st.nexpansions : Int)
        · rw [if_pos hm, if_pos hm]; simp [Except.map, NState.shade]
        · rw [if_neg hm, if_neg hm]
          cases hs : M.successors node.state with
          | error e => simp [Except.map]
          | ok l =>
            dsimp only
            refine Eq.trans ?_ (nodeLoop_shade M max fuel _)
            simp only [NState.shade, addChildren_shade, List.map_append, List.map_cons, List.map_nil]

/-- C125: the nodes do not influence the search: it expands the same states in the same order, and counts the same, as the search of C27. -/
theorem C125_search (M : SearchModel σ ω κ ε) (max : Int) (fuel : Nat) :
    bfs M max fuel = (nodeSearch M max fuel).map (fun r => r.map fun p => (p.1, p.2.shade)) :=
  nodeLoop_shade M max fuel ⟨[.root M.init], [M.key M.init], 0, 0, 0, []⟩

theorem bfs_of_nodes {M : SearchModel σ ω κ ε} {max : Int} {fuel : Nat} {c : Bool} {st : NState σ ω κ}
    (h : nodeSearch M max fuel = some (.ok (c, st))) : bfs M max fuel = some (.ok (c, st.shade)) := by
  rw [C125_search, h]; rfl

theorem addChildren_leads (M : SearchModel σ ω κ ε) {node : SNode σ ω} {l₀ : List (ω × σ)} (hn : Leads M M.init node.plan node.state)
    (hl : M.successors node.state = .ok l₀) : ∀ (l : List (ω × σ)), (∀ x ∈ l, x ∈ l₀) → ∀ (op : List (SNode σ ω)) (cl : List κ),
    (∀ n ∈ op, Leads M M.init n.plan n.state) → ∀ n ∈ (addChildren M.key node l op cl).1, Leads M M.init n.plan n.state
  | [], _, _, _, ho => ho
  | (a, s) :: l, hsub, op, cl, ho => by
    simp only [addChildren]
    have hsub' : ∀ x ∈ l, x ∈ l₀ := fun x hx => hsub x (List.mem_cons_of_mem _ hx)
    split
    · exact addChildren_leads M hn hl l hsub' op cl ho
    · refine addChildren_leads M hn hl l hsub' _ _ ?_
      intro n hm
      rcases List.mem_append.mp hm with hm | hm
      · exact ho n hm
      · obtain rfl := List.mem_singleton.mp hm
        exact hn.snoc hl (hsub (a, s) (List.mem_cons_self ..))

theorem nodeLoop_leads (M : SearchModel σ ω κ ε) (max : Int) : ∀ (fuel : Nat) (st : NState σ ω κ) (c : Bool) (st' : NState σ ω κ),
    (∀ n ∈ st.expanded ++ st.openl, Leads M M.init n.plan n.state) → nodeLoop M max fuel st = some (.ok (c, st')) →
    ∀ n ∈ st'.expanded ++ st'.openl, Leads M M.init n.plan n.state
  | 0, st, c, st', hi, h => by
    unfold nodeLoop at h
    cases ho : st.openl with
    | nil => rw [ho] at h; cases h; exact hi
    | cons a r => rw [ho] at h; cases h
  | fuel + 1, st, c, st', hi, h => by
    unfold nodeLoop at h
    cases ho : st.openl with
    | nil => rw [ho] at h; cases h; exact hi
    | cons node rest =>
      rw [ho] at h hi
      have hnode := hi node (by simp)
      cases hg : M.isGoal node.state with
      | error e => simp [hg] at h
      | ok g =>
        simp only [hg] at h
        split at h
        · cases h
          intro n hn
          refine hi n ?_
          rcases List.mem_append.mp hn with hn | hn
          · exact List.mem_append_left _ hn
          · exact List.mem_append_right _ (List.mem_cons_of_mem _ hn)
        · cases hs : M.successors node.state with
          | error e => simp [hs] at h
          | ok l =>
            simp only [hs] at h
            refine nodeLoop_leads M max fuel _ c st' ?_ h
            intro n hn
            simp only [List.append_assoc, List.singleton_append, List.mem_append, List.mem_cons] at hn
            rcases hn with hn | rfl | hn
            · exact hi n (List.mem_append_left _ hn)
            · exact hnode
            · exact addChildren_leads M hnode hs l (fun _ h => h) rest st.closed (fun m hm => hi m (by simp [hm])) n hn

/-- C125: in whatever node the search holds when it stops, the links to the parents spell out actions that lead from the initial state to
the state of the node. -/
theorem C125_plan {M : SearchModel σ ω κ ε} {max : Int} {fuel : Nat} {c : Bool} {st : NState σ ω κ}
    (h : nodeSearch M max fuel = some (.ok (c, st))) : ∀ n ∈ st.expanded ++ st.openl, Leads M M.init n.plan n.state :=
  nodeLoop_leads M max fuel _ c st (by simp [SNode.plan, SNode.state, Leads.here]) h

/-- C125: no sequence of actions that leads to the state of an expanded node is shorter than the one the node records. -/
theorem C125_shortest {M : SearchModel σ ω κ ε} (hk : KeyOk M) {max : Int} {fuel : Nat} {c : Bool} {st : NState σ ω κ}
    (h : nodeSearch M max fuel = some (.ok (c, st))) {n : SNode σ ω} (hn : n ∈ st.expanded) {as : List ω} {t : σ} (ht : Leads M M.init as t)
    (hkey : M.key t = M.key n.state) : n.plan.length ≤ as.length := by
  have hr := ht.reaches 0 .init
  rw [Nat.zero_add] at hr
  exact (C27_levels hk (bfs_of_nodes h)).2 n.shade (List.mem_map_of_mem hn) _ t hkey hr

/-- C125: the first expanded node with a goal state records a plan that is as short as any sequence of actions that leads to a goal state,
also when a limit stopped the search later. -/
theorem C125_first_goal {M : SearchModel σ ω κ ε} (hk : KeyOk M) {max : Int} {fuel : Nat} {c : Bool} {st : NState σ ω κ}
    (h : nodeSearch M max fuel = some (.ok (c, st))) {before after : List (SNode σ ω)} {n : SNode σ ω} (he : st.expanded = before ++ n :: after)
    (hb : ∀ m ∈ before, M.isGoal m.state ≠ .ok true) {as : List ω} {t : σ} (ht : Leads M M.init as t) (hg : M.isGoal t = .ok true) :
    n.plan.length ≤ as.length := by
  have hr := ht.reaches 0 .init
  rw [Nat.zero_add] at hr
  by_contra hlt
  obtain ⟨opn, clo, it, g, hi, -, -, -⟩ := (bfs_done (bfs_of_nodes h)).inv
  have hexp : st.shade.expanded = before.map SNode.shade ++ n.shade :: after.map SNode.shade := by simp [NState.shade, he]
  have hnmem : n.shade ∈ st.shade.expanded := by rw [hexp]; simp
  have hsort := hi.sorted
  dsimp only at hsort
  rw [List.pairwise_append] at hsort
  have key : ∀ k s, Reaches M k s → k < n.plan.length → ∃ q ∈ st.shade.expanded ++ opn, M.key q.1 = M.key s ∧ q.2 ≤ k := by
    intro k s hs
    induction hs with
    | init => intro _; exact ⟨_, hi.root, rfl, Nat.le_refl _⟩
    | @step k s l o t hs hl ht ih =>
      intro hk'
      obtain ⟨v, hv, hvk, hvn⟩ := ih (by omega)
      have hve : v ∈ st.shade.expanded := by
        rcases List.mem_append.1 hv with h | h
        · exact h
        · have : n.plan.length ≤ v.2 := hsort.2.2 n.shade hnmem v h
          omega
      obtain ⟨l', hl', hq⟩ := hi.succ v hve
      obtain ⟨o', u', hu', hk2⟩ := hk.succ _ _ s v.1 l l' hs (hi.reach v hv) hvk.symm hl hl' o t ht
      obtain ⟨q, hq1, hq2, hq3⟩ := hq o' u' hu'
      exact ⟨q, hq1, hq2.trans hk2, by omega⟩
  obtain ⟨q, hq, hqk, hqn⟩ := key _ t hr (by omega)
  have hqgoal : M.isGoal q.1 = .ok true := by rw [hk.goal _ _ q.1 t (hi.reach q hq) hr hqk]; exact hg
  have hqe : q ∈ st.shade.expanded := by
    rcases List.mem_append.1 hq with h | h
    · exact h
    · have : n.plan.length ≤ q.2 := hsort.2.2 n.shade hnmem q h
      omega
  have hs1 := hsort.1
  rw [hexp, List.pairwise_append, List.pairwise_cons] at hs1
  rw [hexp] at hqe
  rcases List.mem_append.1 hqe with h | h
  · obtain ⟨m, hm, rfl⟩ := List.mem_map.1 h
    exact hb m hm hqgoal
  · have : n.plan.length ≤ q.2 := by
      rcases List.mem_cons.1 h with rfl | h
      · exact Nat.le_refl _
      · exact hs1.2.1.1 q h
    omega

/-- C125: a search that exhausts the space has expanded a node with a goal state exactly if some sequence of actions leads to a goal. -/
theorem C125_goal {M : SearchModel σ ω κ ε} (hk : KeyOk M) {max : Int} {fuel : Nat} {st : NState σ ω κ}
    (h : nodeSearch M max fuel = some (.ok (true, st))) :
    (∃ n ∈ st.expanded, M.isGoal n.state = .ok true) ↔ ∃ as t, Leads M M.init as t ∧ M.isGoal t = .ok true := by
  constructor
  · rintro ⟨n, hn, hg⟩
    exact ⟨_, _, C125_plan h n (List.mem_append_left _ hn), hg⟩
  · rintro ⟨as, t, ht, hg⟩
    have hr := ht.reaches 0 .init
    obtain ⟨p, hp, hpk, -⟩ := C27_complete hk (bfs_of_nodes h) _ t hr
    have hpr := (C27_expands (bfs_of_nodes h)).1 p hp
    have hpg : M.isGoal p.1 = .ok true := by rw [hk.goal _ _ p.1 t hpr hr hpk]; exact hg
    obtain ⟨n, hn, rfl⟩ := List.mem_map.1 hp
    exact ⟨n, hn, hpg⟩

omit [DecidableEq κ] in
/-- For ground planning problems the recorded actions are operators that can be executed one after the other. -/
theorem leads_exec {L : MLang} {dom : Domains} {init : MState} {goal : Formula} {ops : List Operator} {key : MState → κ} {m : MState}
    {os : List Operator} {m' : MState} (h : Leads (groundSearchModel L dom init goal ops key) m os m') :
    (∀ o ∈ os, o ∈ ops) ∧ execPlan L dom m os = .ok (some m') := by
  induction h with
  | here s => exact ⟨by simp, rfl⟩
  | @next s a u as t l hl ha _ ih =>
    obtain ⟨h1, h2, h3⟩ := (mem_groundSuccessors L dom s ops l hl a u).1 ha
    refine ⟨?_, ?_⟩
    · intro o ho
      rcases List.mem_cons.1 ho with rfl | ho
      · exact h1
      · exact ih.1 o ho
    · simp [execPlan, h2, h3, ih.2]

/-- C125 for planning problems: the operators recorded in a node are among the given ones, each is applicable where it is applied, and
executing them from the initial state gives the state of the node; those of a node with a goal state are a plan. -/
theorem C125_planning (L : MLang) (dom : Domains) (init : MState) (goal : Formula) (ops : List Operator) (key : MState → κ)
    {max : Int} {fuel : Nat} {c : Bool} {st : NState MState Operator κ}
    (h : nodeSearch (groundSearchModel L dom init goal ops key) max fuel = some (.ok (c, st))) :
    ∀ n ∈ st.expanded ++ st.openl, (∀ o ∈ n.plan, o ∈ ops) ∧ execPlan L dom init n.plan = .ok (some n.state) :=
  fun n hn => leads_exec (C125_plan h n hn)

/-! ### A concrete search: the numbers up to 5 by adding 1 or 2 -/

/-- States 0 to 5, goal 5. -/
def exCount : SearchModel Nat String Nat Unit where
  init := 0
  successors n := .ok ((if n + 1 ≤ 5 then [("one", n + 1)] else []) ++ (if n + 2 ≤ 5 then [("two", n + 2)] else []))
  isGoal n := .ok (n == 5)
  key n := n

theorem exCount_ok : KeyOk exCount where
  succ := by
    intro m n s t l l' _ _ hk h h' o u hu
    obtain rfl : s = t := hk
    rw [h] at h'; cases h'
    exact ⟨o, u, hu, rfl⟩
  goal := by intro m n s t _ _ hk; obtain rfl : s = t := hk; rfl

/-- Non-vacuity: the search finds the goal with three actions, the least number. -/
example : ∃ st, nodeSearch exCount (-1) 10 = some (.ok (true, st)) ∧
    st.expanded.map (fun n => (n.state, n.plan)) =
      [(0, []), (1, ["one"]), (2, ["two"]), (3, ["one", "two"]), (4, ["two", "two"]), (5, ["one", "two", "two"])] :=
  ⟨_, rfl, rfl⟩

end Tarski

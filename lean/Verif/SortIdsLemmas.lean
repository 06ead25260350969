import Verif.SortIds
/-! Helper lemmas for C22. -/
namespace Tarski

theorem numberFrom_fst (lb l) : (numberFrom lb l).map (·.1) = l := by
  induction l generalizing lb with
  | nil => rfl
  | cons a l ih => simp [numberFrom, ih]

theorem numberFrom_snd (lb l) : (numberFrom lb l).map (·.2) = List.range' lb l.length := by
  induction l generalizing lb with
  | nil => rfl
  | cons a l ih => simp [numberFrom, ih, List.range'_succ]

mutual
theorem sorted_name : ∀ t : STree, t.sorted.name = t.name
  | .node _ _ _ _ => rfl
end
theorem sorted_interval : ∀ t : STree, t.sorted.interval = t.interval
  | .node _ _ _ _ => rfl

theorem sortedL_eq (cs : List STree) : sortedL cs = cs.map STree.sorted := by
  induction cs with
  | nil => rfl
  | cons c cs ih => simp [sortedL, ih]

theorem domains_eq (cs : List STree) : domains cs = cs.flatMap STree.domain := by
  induction cs with
  | nil => rfl
  | cons c cs ih => simp [domains, ih]

mutual
theorem sorted_domain : ∀ t : STree, t.sorted.domain.Perm t.domain
  | .node n i o cs => by
    simp only [STree.sorted, STree.domain]
    refine List.Perm.append_left _ ?_
    have h1 : (domains ((sortedL cs).mergeSort (fun a b => decide (a.name ≤ b.name)))).Perm (domains (sortedL cs)) := by
      rw [domains_eq, domains_eq]
      exact (List.mergeSort_perm _ _).flatMap_right _
    exact h1.trans (sortedL_domain cs)
theorem sortedL_domain : ∀ cs : List STree, (domains (sortedL cs)).Perm (domains cs)
  | [] => .refl _
  | c :: cs => by
    simp only [sortedL, domains]
    exact (sorted_domain c).append (sortedL_domain cs)
end

theorem domains_nil_iff (cs : List STree) : domains cs = [] ↔ ∀ c ∈ cs, c.domain = [] := by
  induction cs with
  | nil => simp [domains]
  | cons c cs ih => simp [domains, ih]

theorem mem_sortedChildren {cs : List STree} {c} :
    c ∈ (sortedL cs).mergeSort (fun a b => decide (a.name ≤ b.name)) ↔ ∃ d ∈ cs, d.sorted = c := by
  rw [List.mem_mergeSort, sortedL_eq, List.mem_map]

theorem sorted_leaf {t : STree} (h : IntervalLeaf t) : IntervalLeaf t.sorted := by
  induction h with
  | interval n o cs hd =>
    refine .interval _ _ _ ?_
    have h1 : (domains ((sortedL cs).mergeSort (fun a b => decide (a.name ≤ b.name)))).Perm (domains cs) := by
      refine List.Perm.trans ?_ (sortedL_domain cs)
      rw [domains_eq, domains_eq]
      exact (List.mergeSort_perm _ _).flatMap_right _
    rw [hd] at h1
    exact h1.eq_nil
  | plain n o cs _ ih =>
    refine .plain _ _ _ ?_
    intro c hc
    obtain ⟨d, hd, rfl⟩ := mem_sortedChildren.mp hc
    exact ih d hd

theorem sorted_plainSortIn {s t : STree} (h : PlainSortIn s t) : PlainSortIn s.sorted t.sorted := by
  induction h with
  | self ht => exact .self _ (by rw [sorted_interval]; exact ht)
  | child n o cs c hc _ ih =>
    exact .child _ _ _ _ c.sorted (mem_sortedChildren.mpr ⟨c, hc, rfl⟩) ih

/-- Main induction. -/
structure AssignOK (t : STree) (start : Nat) : Prop where
  keys : ((assign t start).ids.map (·.1)).Perm t.domain
  vals : (assign t start).ids.map (·.2) = List.range' start t.domain.length
  bounds : ∀ s, PlainSortIn s t → ∃ lo hi pre mid post, (s.name, (lo, hi)) ∈ (assign t start).bounds ∧
    (assign t start).ids = pre ++ mid ++ post ∧ (mid.map (·.1)).Perm s.domain ∧
    mid.map (·.2) = List.range' lo s.domain.length ∧ hi = lo + s.domain.length ∧ lo = start + pre.length

mutual
theorem assign_ok : ∀ (t : STree) (start : Nat), IntervalLeaf t → t.interval = false → AssignOK t start
  | .node n i objs cs, start, hl, hi => by
    have hi' : i = false := hi
    subst hi'
    have hcs : ∀ c ∈ cs, IntervalLeaf c := by
      cases hl with
      | plain _ _ _ h => exact h
    obtain ⟨k, v, e, b⟩ := assignAll_ok cs start hcs
    have hlen : (sortObjs objs).length = objs.length := by simp [sortObjs]
    have hperm : (sortObjs objs).Perm objs := List.mergeSort_perm _ _
    have hdl : (STree.node n false objs cs).domain.length = objs.length + (domains cs).length := by
      simp [STree.domain]
    have hkeys : ((assign (.node n false objs cs) start).ids.map (·.1)).Perm (STree.node n false objs cs).domain := by
      simp only [assign, List.map_append, numberFrom_fst, STree.domain, Bool.false_eq_true, if_false]
      exact (List.perm_append_comm).trans (hperm.append k)
    have hvals : (assign (.node n false objs cs) start).ids.map (·.2) =
        List.range' start (STree.node n false objs cs).domain.length := by
      simp only [assign, List.map_append, numberFrom_snd, v, e, hlen, hdl]
      rw [List.range'_append_1, Nat.add_comm]
    refine ⟨hkeys, hvals, ?_⟩
    intro s hs
    cases hs with
    | self _ =>
      refine ⟨start, start + (STree.node n false objs cs).domain.length, [], _, [], ?_, by simp, hkeys, hvals, rfl,
        by simp⟩
      simp only [assign, STree.name, List.mem_append, List.mem_singleton]
      right
      rw [e, hdl]; simp; omega
    | child _ _ _ c hc hsc =>
      obtain ⟨lo, hi, pre, mid, post, h1, h2, h3, h4, h5, h6⟩ := b c hc s hsc
      refine ⟨lo, hi, pre, mid, post ++ numberFrom (assignAll cs start).2 (sortObjs objs), ?_, ?_, h3, h4, h5, h6⟩
      · simp only [assign, List.mem_append]; exact Or.inl h1
      · simp only [assign, h2, List.append_assoc]
theorem assignAll_ok : ∀ (cs : List STree) (start : Nat), (∀ c ∈ cs, IntervalLeaf c) →
    (((assignAll cs start).1.ids.map (·.1)).Perm (domains cs)) ∧
    ((assignAll cs start).1.ids.map (·.2) = List.range' start (domains cs).length) ∧
    ((assignAll cs start).2 = start + (domains cs).length) ∧
    (∀ c ∈ cs, ∀ s, PlainSortIn s c → ∃ lo hi pre mid post, (s.name, (lo, hi)) ∈ (assignAll cs start).1.bounds ∧
      (assignAll cs start).1.ids = pre ++ mid ++ post ∧ (mid.map (·.1)).Perm s.domain ∧
      mid.map (·.2) = List.range' lo s.domain.length ∧ hi = lo + s.domain.length ∧ lo = start + pre.length)
  | [], start, _ => by simp [assignAll, domains]
  | c :: cs, start, hl => by
    have hlc := hl c (by simp)
    have hlcs : ∀ d ∈ cs, IntervalLeaf d := fun d hd => hl d (by simp [hd])
    by_cases hiv : c.interval = true
    · have hdom : c.domain = [] := by
        cases hlc with
        | interval n o cs' h => simp [STree.domain, h]
        | plain n o cs' h => simp [STree.interval] at hiv
      obtain ⟨k, v, e, b⟩ := assignAll_ok cs start hlcs
      have hd : domains (c :: cs) = domains cs := by simp [domains, hdom]
      have ha : assignAll (c :: cs) start = assignAll cs start := by simp [assignAll, hiv]
      rw [hd, ha]
      refine ⟨k, v, e, ?_⟩
      intro d hd s hs
      rcases List.mem_cons.mp hd with rfl | hd
      · exfalso
        cases hs with
        | self h => rw [h] at hiv; cases hiv
        | child _ _ _ c' _ _ => simp [STree.interval] at hiv
      · exact b d hd s hs
    · have hiv' : c.interval = false := by simpa using hiv
      obtain ⟨k1, v1, b1⟩ := assign_ok c start hlc hiv'
      obtain ⟨k, v, e, b⟩ := assignAll_ok cs (start + c.domain.length) hlcs
      have ha : assignAll (c :: cs) start =
          (⟨(assign c start).ids ++ (assignAll cs (start + c.domain.length)).1.ids,
            (assign c start).bounds ++ (assignAll cs (start + c.domain.length)).1.bounds⟩,
           (assignAll cs (start + c.domain.length)).2) := by
        simp [assignAll, hiv']
      rw [ha]
      have hl1 : (assign c start).ids.length = c.domain.length := by
        have := k1.length_eq; simpa using this
      refine ⟨?_, ?_, ?_, ?_⟩
      · simp only [List.map_append, domains]; exact k1.append k
      · simp only [List.map_append, domains, v1, v, List.length_append]
        rw [List.range'_append_1]
      · simp only [domains, List.length_append, e]; omega
      · intro d hd s hs
        rcases List.mem_cons.mp hd with rfl | hd
        · obtain ⟨lo, hi, pre, mid, post, h1, h2, h3, h4, h5, h6⟩ := b1 s hs
          refine ⟨lo, hi, pre, mid, post ++ (assignAll cs (start + d.domain.length)).1.ids, ?_, ?_, h3, h4, h5, h6⟩
          · exact List.mem_append_left _ h1
          · simp only [h2, List.append_assoc]
        · obtain ⟨lo, hi, pre, mid, post, h1, h2, h3, h4, h5, h6⟩ := b d hd s hs
          refine ⟨lo, hi, (assign c start).ids ++ pre, mid, post, ?_, ?_, h3, h4, h5, ?_⟩
          · exact List.mem_append_right _ h1
          · simp only [h2, List.append_assoc]
          · simp only [List.length_append, hl1]; omega
end

mutual
/-- Names of the sorts that get an interval: those reached through non-interval sorts. -/
def plainNames : STree → List String
  | .node n _ _ cs => plainNamesL cs ++ [n]
def plainNamesL : List STree → List String
  | [] => []
  | c :: cs => (if c.interval then [] else plainNames c) ++ plainNamesL cs
end

theorem plainNamesL_eq (cs : List STree) :
    plainNamesL cs = cs.flatMap (fun c => if c.interval then [] else plainNames c) := by
  induction cs with
  | nil => rfl
  | cons c cs ih => simp [plainNamesL, ih]

mutual
theorem bounds_names : ∀ t start, (assign t start).bounds.map (·.1) = plainNames t
  | .node n i o cs, start => by simp [assign, plainNames, boundsAll_names cs start]
theorem boundsAll_names : ∀ cs start, (assignAll cs start).1.bounds.map (·.1) = plainNamesL cs
  | [], _ => rfl
  | c :: cs, start => by
    by_cases h : c.interval = true
    · simp [assignAll, plainNamesL, h, boundsAll_names cs start]
    · simp [assignAll, plainNamesL, h, boundsAll_names cs _, bounds_names c start]
end

mutual
theorem sorted_plainNames : ∀ t : STree, (plainNames t.sorted).Perm (plainNames t)
  | .node n i o cs => by
    simp only [STree.sorted, plainNames]
    refine List.Perm.append_right _ ?_
    refine List.Perm.trans ?_ (sortedL_plainNames cs)
    rw [plainNamesL_eq, plainNamesL_eq]
    exact (List.mergeSort_perm _ _).flatMap_right _
theorem sortedL_plainNames : ∀ cs : List STree, (plainNamesL (sortedL cs)).Perm (plainNamesL cs)
  | [] => .refl _
  | c :: cs => by
    simp only [sortedL, plainNamesL, sorted_interval]
    refine List.Perm.append ?_ (sortedL_plainNames cs)
    split
    · exact .refl _
    · exact sorted_plainNames c
end

theorem unique_of_nodup_fst {α β} {l : List (α × β)} (h : (l.map (·.1)).Nodup) {a b b'} (h1 : (a, b) ∈ l)
    (h2 : (a, b') ∈ l) : b = b' := by
  induction l with
  | nil => cases h1
  | cons x l ih =>
    simp only [List.map_cons, List.nodup_cons, List.mem_map, not_exists, not_and] at h
    rcases List.mem_cons.mp h1 with rfl | h1' <;> rcases List.mem_cons.mp h2 with h2' | h2'
    · cases h2'; rfl
    · exact (h.1 _ h2' rfl).elim
    · subst h2'; exact (h.1 _ h1' rfl).elim
    · exact ih h.2 h1' h2'

theorem unique_of_nodup_snd {α β} {l : List (α × β)} (h : (l.map (·.2)).Nodup) {a a' b} (h1 : (a, b) ∈ l)
    (h2 : (a', b) ∈ l) : a = a' := by
  induction l with
  | nil => cases h1
  | cons x l ih =>
    simp only [List.map_cons, List.nodup_cons, List.mem_map, not_exists, not_and] at h
    rcases List.mem_cons.mp h1 with rfl | h1' <;> rcases List.mem_cons.mp h2 with h2' | h2'
    · cases h2'; rfl
    · exact (h.1 _ h2' rfl).elim
    · subst h2'; exact (h.1 _ h1' rfl).elim
    · exact ih h.2 h1' h2'

end Tarski

import Verif.LanguageLemmas
/-! Termination of declarations and of subtype queries, and failure atomicity (helpers for C19-C21, C44). -/
namespace Tarski

theorem length_le_of_mem_max (l : List Nat) (x : Nat) (h : x ∈ l) : x ≤ l.foldr max 0 := by
  induction l with
  | nil => simp at h
  | cons a l ih =>
    simp only [List.foldr_cons]
    rcases List.mem_cons.mp h with rfl | h
    · exact Nat.le_max_left _ _
    · exact Nat.le_trans (ih h) (Nat.le_max_right _ _)

theorem anc_bounded {L : Lang} (hi : HierInv L) : ∃ N, ∀ s, (L.anc s).length ≤ N := by
  refine ⟨(L.hist.map (fun p => (L.anc p.1).length)).foldr max 0, fun s => ?_⟩
  cases hs : L.anc s with
  | nil => simp
  | cons a l =>
    obtain ⟨b, hb, _⟩ := hi.ancHist s a (by rw [hs]; simp)
    rw [← hs]
    apply length_le_of_mem_max
    rw [List.mem_map]
    exact ⟨(s, b), hb, rfl⟩

theorem anc_rank {L : Lang} (hi : TreeInv L) : ∃ r : String → Nat, ∀ s p, p ∈ L.anc s → r p < r s := by
  obtain ⟨r, hr⟩ := hi.rank
  refine ⟨r, ?_⟩
  have hst : ∀ a b, Star L.ParentOf a b → r b ≤ r a := by
    intro a b h
    induction h with
    | refl => exact Nat.le_refl _
    | step a b c h1 _ ih => have := hr a b h1; omega
  intro s p hp
  obtain ⟨b, h1, h2⟩ := (hi.hier.ancHist s p hp).mono hi.histPar
  have h3 := hr s b h1
  have h4 := hst b p h2
  omega

theorem isSubtype_terminates {L : Lang} (hi : TreeInv L) (t s : String) :
    ∃ n r, isSubtype n L t s = some r := by
  obtain ⟨r, hr⟩ := anc_rank hi
  obtain ⟨N, hN⟩ := anc_bounded hi.hier
  refine ⟨((L.anc t).map (fun o => (N + 1) ^ r o)).sum, ?_⟩
  obtain ⟨b, hb⟩ := connLoop_terminates r N hr hN s _ (L.anc t) (Nat.le_refl _)
  unfold isSubtype
  split
  · exact ⟨_, rfl⟩
  · split
    · exact ⟨_, rfl⟩
    · split
      · exact ⟨_, rfl⟩
      · rw [hb]
        cases b
        · exact ⟨_, rfl⟩
        · exact ⟨_, rfl⟩

theorem inclusionClosure_terminates (par : String → Option (Option String)) (r : String → Nat)
    (hr : ∀ a b, par a = some (some b) → r b < r a) :
    ∀ n s, r s < n → ∃ o, inclusionClosure par n s = some o := by
  intro n
  induction n with
  | zero => intro s h; omega
  | succ n ih =>
    intro s h
    simp only [inclusionClosure]
    cases hp : par s with
    | none => exact ⟨_, rfl⟩
    | some o =>
      cases o with
      | none => exact ⟨_, rfl⟩
      | some p =>
        obtain ⟨o, ho⟩ := ih p (by have := hr s p hp; omega)
        simp only [ho]
        cases o with
        | error e => exact ⟨_, rfl⟩
        | ok l => exact ⟨_, rfl⟩

theorem attach_terminates {L : Lang} (hi : TreeInv L) {name p : String} (hp : (L.sorts p).isSome)
    (hn : L.sorts name = none) (i : SortInfo) :
    ∃ n r, setParent n { L with sorts := upd L.sorts name (some i), index := upd L.index name (some (.sort name)) } name p false
      = some r := by
  have hpn : p ≠ name := by rintro rfl; rw [hn] at hp; simp at hp
  obtain ⟨r, hr⟩ := hi.rank
  have hr' : ∀ a b, upd L.parent name (some (some p)) a = some (some b) →
      upd r name (r p + 1) b < upd r name (r p + 1) a := by
    intro a b hab
    by_cases ha : a = name
    · subst ha
      rw [upd_self] at hab; cases hab
      rw [upd_self, upd_ne _ _ hpn]; omega
    · rw [upd_ne _ _ ha] at hab
      have hb : b ≠ name := by
        rintro rfl
        have := hi.hier.parReg _ _ hab
        rw [hn] at this; simp at this
      rw [upd_ne _ _ ha, upd_ne _ _ hb]
      exact hr a b hab
  obtain ⟨o, ho⟩ := inclusionClosure_terminates _ _ hr' _ p (Nat.lt_succ_self _)
  refine ⟨upd r name (r p + 1) p + 1, ?_⟩
  · unfold setParent
    split
    · exact ⟨_, rfl⟩
    · simp only
      have ho' : inclusionClosure (upd L.parent name (some (some p))) (upd r name (r p + 1) p + 1) p = some o := ho
      rw [ho']
      cases o with
      | error e => exact ⟨_, rfl⟩
      | ok l => exact ⟨_, rfl⟩

/-- Every declaration returns. -/
theorem step_terminates {L : Lang} (hi : DomInv L) (hni : NameInv L) (op : LOp) (hp : op.plain)
    (hb : ∀ s p, op = .attachBuiltin s p → (L.sorts p).isSome) : ∃ n r, lstep n L op = some r := by
  have hidx : ∀ name, L.index name = none → L.sorts name = none := by
    intro name hn
    have := hni.sort name; rw [hn] at this; simpa using this
  cases op with
  | sort name parent =>
    simp only [lstep, declSort]
    cases hs : L.sorts parent with
    | none => exact ⟨0, _, rfl⟩
    | some i =>
      simp only [attachSort]
      cases hc : checkName L (L.sorts name).isSome name with
      | some e => exact ⟨0, _, rfl⟩
      | none => exact attach_terminates hi.tree (by simp [hs]) (hidx _ (checkName_none hc).2) _
  | attachBuiltin name parent =>
    simp only [lstep, attachSort]
    cases hc : checkName L (L.sorts name).isSome name with
    | some e => exact ⟨0, _, rfl⟩
    | none => exact attach_terminates hi.tree (hb _ _ rfl) (hidx _ (checkName_none hc).2) _
  | attachForeign name => exact absurd hp (by simp [LOp.plain])
  | interval name parent lb ub =>
    simp only [lstep, declInterval]
    cases hc : checkName L (L.sorts name).isSome name with
    | some e => exact ⟨0, _, rfl⟩
    | none =>
      simp only
      split
      · exact ⟨0, _, rfl⟩
      · rename_i hpar
        split
        · exact ⟨0, _, rfl⟩
        · split
          · exact ⟨0, _, rfl⟩
          · split
            · exact ⟨0, _, rfl⟩
            · refine attach_terminates hi.tree ?_ (hidx _ (checkName_none hc).2) _
              cases hx : L.sorts parent with
              | none => rw [hx] at hpar; simp at hpar
              | some _ => simp
  | predicate name args => exact ⟨0, _, rfl⟩
  | function name args => exact ⟨0, _, rfl⟩
  | constant name sort castOk =>
    simp only [lstep, declConstant]
    cases hs : L.sorts sort with
    | none => exact ⟨0, _, rfl⟩
    | some i =>
      simp only
      split
      · exact ⟨0, _, rfl⟩
      · cases hc : checkName L (L.consts name).isSome name with
        | some e => exact ⟨0, _, rfl⟩
        | none =>
          simp only
          split
          · split
            · exact ⟨0, _, rfl⟩
            · exact ⟨0, _, rfl⟩
          · obtain ⟨r, hr⟩ := anc_rank hi.tree
            obtain ⟨d, hd⟩ := extend_terminates r hr (r sort + 1) L.dom sort name (Nat.lt_succ_self _)
            exact ⟨r sort + 1, by rw [hd]; exact ⟨_, rfl⟩⟩
  | removeSymbol name => exact ⟨0, _, rfl⟩
  | setParent s p => exact absurd hp (by simp [LOp.plain])
  | isSubtype t s =>
    obtain ⟨n, r, h⟩ := isSubtype_terminates hi.tree t s
    exact ⟨n, (r.2, none), by simp [lstep, h]⟩

/-- A `set_parent` that would close a cycle does not return. -/
theorem inclusionClosure_cycle (par : String → Option (Option String)) (S : String → Prop)
    (hS : ∀ x, S x → ∃ y, par x = some (some y) ∧ S y) : ∀ n x, S x → inclusionClosure par n x = none := by
  intro n
  induction n with
  | zero => intro x _; rfl
  | succ n ih =>
    intro x hx
    obtain ⟨y, hy, hSy⟩ := hS x hx
    simp [inclusionClosure, hy, ih y hSy]

theorem setParent_cycle {L : Lang} {s p : String} (h : Star L.ParentOf p s) :
    ∀ n, setParent n L s p true = none := by
  intro n
  unfold setParent
  have key : inclusionClosure (upd L.parent s (some (some p))) n p = none := by
    apply inclusionClosure_cycle _ (fun x => Star L.ParentOf p x ∧ Star L.ParentOf x s)
    · rintro x ⟨h1, h2⟩
      by_cases hx : x = s
      · subst hx; exact ⟨p, upd_self _ _ _, .refl _, h⟩
      · cases h2 with
        | refl => exact absurd rfl hx
        | step _ b _ h3 h4 => exact ⟨b, by rw [upd_ne _ _ hx]; exact h3, h1.trans (.single h3), h4⟩
    · exact ⟨.refl _, h⟩
  simp [key]

/-- Failing calls change nothing (all calls except attaching below a foreign sort). -/
theorem step_atomic {n L op L' e} (hi : HierInv L) (hni : NameInv L) (hp : op.noForeign)
    (hset : ∀ s p, op = .setParent s p → (L.sorts s).isSome ∧ (L.sorts p).isSome)
    (hb : ∀ s p, op = .attachBuiltin s p → (L.sorts p).isSome)
    (h : lstep n L op = some (L', some e)) : L' = L := by
  have hidx : ∀ name, L.index name = none → L.sorts name = none := by
    intro name hn
    have := hni.sort name; rw [hn] at this; simpa using this
  cases op with
  | sort name parent =>
    simp only [lstep, declSort] at h
    split at h
    · cases h; rfl
    · rename_i i hs
      unfold attachSort at h
      split at h
      · cases h; rfl
      · rename_i hc
        exact absurd (attach_ok hi (by simp [hs]) (hidx _ (checkName_none hc).2) h).1 (by simp)
  | attachBuiltin name parent =>
    simp only [lstep, attachSort] at h
    split at h
    · cases h; rfl
    · rename_i hc
      exact absurd (attach_ok hi (hb _ _ rfl) (hidx _ (checkName_none hc).2) h).1 (by simp)
  | attachForeign name => exact absurd hp (by simp [LOp.noForeign])
  | interval name parent lb ub =>
    simp only [lstep, declInterval] at h
    split at h
    · cases h; rfl
    · rename_i hc
      split at h
      · cases h; rfl
      · rename_i hpar
        split at h
        · cases h; rfl
        · split at h
          · cases h; rfl
          · split at h
            · cases h; rfl
            · refine absurd (attach_ok hi ?_ (hidx _ (checkName_none hc).2) h).1 (by simp)
              cases hx : L.sorts parent with
              | none => rw [hx] at hpar; simp at hpar
              | some _ => simp
  | predicate name args =>
    simp only [lstep, declPredicate] at h
    split at h
    · cases h; rfl
    · split at h
      · cases h; rfl
      · cases h
  | function name args =>
    simp only [lstep, declFunction] at h
    split at h
    · cases h; rfl
    · split at h
      · cases h; rfl
      · split at h
        · cases h; rfl
        · cases h
  | constant name sort castOk =>
    simp only [lstep, declConstant] at h
    split at h
    · cases h; rfl
    · split at h
      · simp only [Option.some.injEq, Prod.mk.injEq] at h; exact h.1.symm
      · split at h
        · cases h; rfl
        · split at h
          · split at h
            · cases h
            · cases h; rfl
          · split at h
            · cases h
            · cases h
  | removeSymbol name =>
    simp only [lstep, removeSymbol] at h
    split at h
    · cases h
    · split at h
      · cases h
      · cases h; rfl
  | setParent s p => exact ((hier_setParent hi (hset s p rfl).1 (hset s p rfl).2 h).2.2 (by simp)).1
  | isSubtype t s =>
    simp only [lstep, Option.map_eq_some_iff] at h
    obtain ⟨⟨b, L2⟩, h, he⟩ := h
    cases he

end Tarski

import Mathlib.Tactic.Common
import Mathlib.Data.List.Induction
import Verif.Model
import Verif.Props.Containers
namespace Tarski

theorem dlookup_ddelete {α β} [DecidableEq α] (d : List (α × β)) (a x : α) :
    dlookup (ddelete d a) x = if x = a then none else dlookup d x := by
  induction d with
  | nil => simp [ddelete, dlookup]
  | cons kv d ih =>
    obtain ⟨k, v⟩ := kv
    by_cases hk : k = a
    · subst hk
      have : ddelete ((k, v) :: d) k = ddelete d k := by simp [ddelete]
      rw [this, ih]
      by_cases hx : x = k
      · simp [hx]
      · simp [hx, dlookup, Ne.symm hx]
    · have : ddelete ((k, v) :: d) a = (k, v) :: ddelete d a := by simp [ddelete, hk]
      rw [this, dlookup, ih, dlookup]
      by_cases hx : k = x
      · subst hx; simp [hk]
      · simp [hx]

theorem mem_ptAdd {α} [DecidableEq α] (s : List α) (a x : α) : x ∈ ptAdd s a ↔ x = a ∨ x ∈ s := by
  unfold ptAdd; split
  · exact ⟨.inr, fun h => h.elim (fun h => by rwa [h]) id⟩
  · simp; tauto

theorem mem_ptDiscard {α} [DecidableEq α] (s : List α) (a x : α) : x ∈ ptDiscard s a ↔ x ∈ s ∧ x ≠ a := by
  simp [ptDiscard]

theorem holds_iff (L : MLang) (m : MState) (p : String) (pt : List Const) :
    m.holds L p pt = true ↔ ∃ ext, dlookup m.preds (L.psig p) = some ext ∧ pt ∈ ext := by
  simp only [MState.holds]; split <;> simp_all

theorem value_iff (L : MLang) (m : MState) (f : String) (pt : List Const) (c : Const) :
    m.value L f pt = .ok c ↔ ∃ d, dlookup m.fns (L.fsig f) = some d ∧ dlookup d pt = some c := by
  simp only [MState.value]; split
  · simp_all
  · split <;> simp_all

theorem psig_inj {L : MLang} {p q} : L.psig p = L.psig q ↔ p = q :=
  ⟨fun h => by simpa [MLang.psig] using congrArg (·.headD "") h, fun h => by rw [h]⟩
theorem fsig_inj {L : MLang} {p q} : L.fsig p = L.fsig q ↔ p = q :=
  ⟨fun h => by simpa [MLang.fsig] using congrArg (·.headD "") h, fun h => by rw [h]⟩
theorem psig_fsig {L : MLang} {p f} (h : L.psig p = L.fsig f) : p = f := by
  simpa [MLang.psig, MLang.fsig] using congrArg (·.headD "") h

/-- The general shape of a "last write wins" argument. -/
theorem last_write {S O : Type} (step : S → O → S) (P : S → Prop) (Inv : S → Prop) (A R : O → Prop) (ok : O → Prop)
    (hinv : ∀ s o, Inv s → ok o → Inv (step s o))
    (hstep : ∀ s o, Inv s → ok o → (P (step s o) ↔ A o ∨ (P s ∧ ¬ R o)))
    (ops : List O) (s : S) (hs : Inv s) (hok : ∀ o ∈ ops, ok o) :
    P (ops.foldl step s) ↔ (∃ pre o post, ops = pre ++ o :: post ∧ A o ∧ ∀ x ∈ post, ¬ R x) ∨ (P s ∧ ∀ o ∈ ops, ¬ R o) := by
  have key : ∀ ops s, Inv s → (∀ o ∈ ops, ok o) → Inv (List.foldl step s ops) := by
    intro ops
    induction ops with
    | nil => intro s hs _; exact hs
    | cons o ops ih => intro s hs hok; exact ih _ (hinv s o hs (hok o (by simp))) (fun x hx => hok x (by simp [hx]))
  induction ops using List.reverseRecOn with
  | nil => simp
  | append_singleton ops o ih =>
    have hok' : ∀ o ∈ ops, ok o := fun x hx => hok x (by simp [hx])
    rw [List.foldl_append, List.foldl_cons, List.foldl_nil, hstep _ o (key ops s hs hok') (hok o (by simp))]
    have ih' : _ ↔ _ := ih hok'
    rw [ih']
    constructor
    · rintro (hA | ⟨(⟨pre, w, post, rfl, hA, hp⟩ | ⟨hP, hR⟩), hRo⟩)
      · exact .inl ⟨ops, o, [], rfl, hA, by simp⟩
      · refine .inl ⟨pre, w, post ++ [o], by simp, hA, ?_⟩
        intro x hx
        rcases List.mem_append.1 hx with h | h
        · exact hp x h
        · rw [List.mem_singleton.1 h]; exact hRo
      · refine .inr ⟨hP, ?_⟩
        intro x hx
        rcases List.mem_append.1 hx with h | h
        · exact hR x h
        · rw [List.mem_singleton.1 h]; exact hRo
    · rintro (⟨pre, w, post, he, hA, hp⟩ | ⟨hP, hR⟩)
      · rcases List.eq_nil_or_concat post with rfl | ⟨post', y, rfl⟩
        · have := List.append_inj' he (by simp)
          simp at this
          exact .inl (this.2 ▸ hA)
        · have he' : ops ++ [o] = (pre ++ w :: post') ++ [y] := by simpa using he
          have := List.append_inj' he' (by simp)
          simp at this
          obtain ⟨h1, rfl⟩ := this
          exact .inr ⟨.inl ⟨pre, w, post', h1, hA, fun x hx => hp x (by simp [hx])⟩, hp o (by simp)⟩
      · exact .inr ⟨.inr ⟨hP, fun x hx => hR x (by simp [hx])⟩, hR o (by simp)⟩

end Tarski

import Verif.LanguageTerm
/-! C19 (names), C20 (subtyping), C21 (domains), C44 (calls return). -/
namespace Tarski

/-! ### Specification -/

/-- `name` has been declared as `o` according to the four containers of the language. -/
inductive Declared (L : Lang) : String → LObj → Prop where
  | sort n : (L.sorts n).isSome → Declared L n (.sort n)
  | pred n a : L.preds n = some a → Declared L n (.pred n a)
  | func n a : L.funs n = some a → Declared L n (.func n a)
  | const n s : L.consts n = some s → Declared L n (.const n s)

/-- The name and object a call declares; constants of builtin sorts are not registered. -/
inductive Declares (L : Lang) : LOp → String → LObj → Prop where
  | sort n p : Declares L (.sort n p) n (.sort n)
  | attachBuiltin n p : Declares L (.attachBuiltin n p) n (.sort n)
  | interval n p lb ub : Declares L (.interval n p lb ub) n (.sort n)
  | predicate n a : Declares L (.predicate n a) n (.pred n a)
  | function n a : Declares L (.function n a) n (.func n a)
  | constant n s c : (∀ i, L.sorts s = some i → i.builtin = false) → Declares L (.constant n s c) n (.const n s)

/-- The sorts a call refers to exist (for `sort`, `constant`; the other calls check the name first). -/
def SortsDefined (L : Lang) : LOp → Prop
  | .sort _ p => (L.sorts p).isSome
  | .constant _ s _ => (L.sorts s).isSome
  | _ => True

/-! ### C19 -/

theorem declared_iff_index {L : Lang} (hi : NameInv L) (n o) : Declared L n o ↔ L.index n = some o := by
  constructor
  · intro hd
    cases hd with
    | sort h => exact (hi.sort n).mp h
    | pred a h => exact (hi.pred n a).mp h
    | func a h => exact (hi.func n a).mp h
    | const s h => exact (hi.const n s).mp h
  · intro h
    rcases hi.name n o h with rfl | ⟨a, rfl⟩ | ⟨a, rfl⟩ | ⟨s, rfl⟩
    · exact .sort _ ((hi.sort n).mpr h)
    · exact .pred _ _ ((hi.pred n a).mpr h)
    · exact .func _ _ ((hi.func n a).mpr h)
    · exact .const _ _ ((hi.const n s).mpr h)

/-- C19: in every language reached by any calls whatsoever, a name is bound to at most one object. -/
theorem C19_names_unique {ok L} (h : LReach ok L) {n o o'} (h1 : Declared L n o) (h2 : Declared L n o') : o = o' := by
  have hi := nameInv_reach h
  rw [declared_iff_index hi] at h1 h2
  rw [h1] at h2; cases h2; rfl

/-- C19: `get` returns exactly the declared object. -/
theorem C19_get {ok L} (h : LReach ok L) (n o) : L.get n = .ok o ↔ Declared L n o := by
  rw [declared_iff_index (nameInv_reach h)]
  unfold Lang.get
  cases L.index n <;> simp

/-- C19: an undeclared name makes `get` raise. -/
theorem C19_get_undefined {ok L} (h : LReach ok L) (n) :
    L.get n = .error .undefinedVariable ↔ ∀ o, ¬ Declared L n o := by
  simp only [declared_iff_index (nameInv_reach h)]
  unfold Lang.get
  cases L.index n <;> simp

/-- C19: declaring a name that is already bound, by a declaration of any kind, raises and changes nothing; the
error is the duplicate-definition error as soon as the sorts the call mentions exist. -/
theorem C19_duplicate {ok L} (h : LReach ok L) {op n o o'} (hd : Declares L op n o') (hb : Declared L n o) (k : Nat) :
    ∃ e, lstep k L op = some (L, some e) ∧ (SortsDefined L op → e = .duplicateVariable) := by
  have hidx := (declared_iff_index (nameInv_reach h) n o).mp hb
  have hc : ∀ b, checkName L b n = some .duplicateVariable := by
    intro b; unfold checkName; cases b <;> simp [hidx]
  cases hd with
  | sort _ p =>
    simp only [lstep, declSort, SortsDefined]
    cases hs : L.sorts p with
    | none => exact ⟨_, rfl, by simp⟩
    | some i => exact ⟨.duplicateVariable, by simp only [attachSort, hc], by simp⟩
  | attachBuiltin _ p => exact ⟨.duplicateVariable, by simp only [lstep, attachSort, hc], by simp⟩
  | interval _ p lb ub => exact ⟨.duplicateVariable, by simp only [lstep, declInterval, hc], by simp⟩
  | predicate _ a => exact ⟨.duplicateVariable, by simp only [lstep, declPredicate, hc], by simp⟩
  | function _ a => exact ⟨.duplicateVariable, by simp only [lstep, declFunction, hc], by simp⟩
  | constant _ s c hnb =>
    simp only [lstep, declConstant, SortsDefined]
    cases hs : L.sorts s with
    | none => exact ⟨_, rfl, by simp⟩
    | some i =>
      have := hnb i hs
      simp only [this, hc]
      exact ⟨_, rfl, by simp⟩

theorem setParent_index {n L s p ow L' e} (h : setParent n L s p ow = some (L', e)) : L'.index = L.index :=
  (sameNames_setParent h).2.2.2.2

/-- C19: a successful declaration binds its name to the declared object and leaves all other names alone. -/
theorem C19_declares {L op n o k L'} (hd : Declares L op n o) (h : lstep k L op = some (L', none)) :
    L'.get n = .ok o ∧ ∀ m, m ≠ n → L'.get m = L.get m := by
  have fin : ∀ L' : Lang, L'.index = upd L.index n (some o) → L'.get n = .ok o ∧ ∀ m, m ≠ n → L'.get m = L.get m := by
    intro L' he
    unfold Lang.get
    constructor
    · rw [he, upd_self]
    · intro m hm; rw [he, upd_ne _ _ hm]
  cases hd with
  | sort _ p =>
    simp only [lstep, declSort] at h
    split at h
    · cases h
    · unfold attachSort at h
      split at h
      · cases h
      · exact fin _ (setParent_index h)
  | attachBuiltin _ p =>
    simp only [lstep, attachSort] at h
    split at h
    · cases h
    · exact fin _ (setParent_index h)
  | interval _ p lb ub =>
    simp only [lstep, declInterval] at h
    split at h
    · cases h
    · split at h
      · cases h
      · split at h
        · cases h
        · split at h
          · cases h
          · split at h
            · cases h
            · exact fin _ (setParent_index h)
  | predicate _ a =>
    simp only [lstep, declPredicate] at h
    split at h
    · cases h
    · split at h
      · cases h
      · cases h; exact fin _ rfl
  | function _ a =>
    simp only [lstep, declFunction] at h
    split at h
    · cases h
    · split at h
      · cases h
      · split at h
        · cases h
        · cases h; exact fin _ rfl
  | constant _ s c hnb =>
    simp only [lstep, declConstant] at h
    split at h
    · cases h
    · rename_i i hs
      have := hnb i hs
      simp only [this] at h
      split at h
      · rename_i h'; cases h'
      · split at h
        · cases h
        · split at h
          · split at h
            · cases h; exact fin _ rfl
            · cases h
          · split at h
            · cases h
            · cases h; exact fin _ rfl

/-- C19: a call that raises leaves the language unchanged, except `attach_sort` with a parent of another
language (see `C19_atomic_refuted`). -/
theorem C19_atomic {L} (hr : LReach LOp.noForeign L) {op k L' e} (hp : op.noForeign)
    (hset : ∀ s p, op = .setParent s p → (L.sorts s).isSome ∧ (L.sorts p).isSome)
    (hb : ∀ s p, op = .attachBuiltin s p → (L.sorts p).isSome)
    (h : lstep k L op = some (L', some e)) : L' = L :=
  step_atomic (hier_reach hr) (nameInv_reach hr) hp hset hb h

/-- The counterexample excluded in `C19_atomic`: `attach_sort` raises and yet registers the name. -/
theorem C19_atomic_refuted : ∃ L' e, lstep 0 Lang.init (.attachForeign "a") = some (L', some e) ∧
    Lang.init.get "a" = .error .undefinedVariable ∧ L'.get "a" = .ok (.sort "a") := by
  refine ⟨_, _, rfl, ?_, ?_⟩ <;> simp [Lang.get, Lang.init, upd]

/-! ### A concrete language: place < object, depot < place, c : depot, p(place) -/

theorem reach_of_step {ok L op} (n : Nat) {L' e} (h : LReach ok L) (hok : ok op)
    (h1 : ∀ s p, op = .setParent s p → (L.sorts s).isSome ∧ (L.sorts p).isSome)
    (h2 : ∀ s p, op = .attachBuiltin s p → (L.sorts p).isSome) (hs : lstep n L op = some (L', e)) : LReach ok L' :=
  .step L op n L' e h hok h1 h2 hs

def runL (n : Nat) : Lang → List LOp → Option Lang
  | L, [] => some L
  | L, op :: ops => match lstep n L op with | some (L', _) => runL n L' ops | none => none

theorem runL_reach {ok : LOp → Prop} (n : Nat) (ops : List LOp) : ∀ {L L'}, LReach ok L →
    (∀ op ∈ ops, ok op ∧ (∀ s p, op ≠ .setParent s p) ∧ (∀ s p, op ≠ .attachBuiltin s p)) →
    runL n L ops = some L' → LReach ok L' := by
  induction ops with
  | nil => intro L L' h _ hr; cases hr; exact h
  | cons op ops ih =>
    intro L L' h hok hr
    simp only [runL] at hr
    split at hr
    · rename_i L1 e1 hs
      have ho := hok op (by simp)
      exact ih (.step L op n L1 e1 h ho.1 (fun s p h => absurd h (ho.2.1 s p)) (fun s p h => absurd h (ho.2.2 s p)) hs)
        (fun o h => hok o (by simp [h])) hr
    · cases hr

/-- A small language. -/
def demoOps : List LOp := [.sort "place" "object", .sort "depot" "place", .constant "c" "depot" true,
  .predicate "p" ["place"]]

def demoLang : Lang := (runL 5 Lang.init demoOps).getD Lang.init

theorem demo_isSome : (runL 5 Lang.init demoOps).isSome := by decide

theorem demo_reach : LReach LOp.plain demoLang := by
  have : runL 5 Lang.init demoOps = some demoLang := by
    unfold demoLang
    have h := demo_isSome
    cases h' : runL 5 Lang.init demoOps with
    | none => rw [h'] at h; cases h
    | some L => rfl
  exact runL_reach 5 demoOps .init (by simp [demoOps, LOp.plain]) this

example : Declared demoLang "c" (.const "c" "depot") := .const _ _ (by decide)
example : Declared demoLang "depot" (.sort "depot") := .sort _ (by decide)
/-- The hypotheses of `C19_duplicate`: declaring the constant's name again as a predicate. -/
example : lstep 3 demoLang (.predicate "c" []) = some (demoLang, some .duplicateVariable) := by
  obtain ⟨e, h, h'⟩ := C19_duplicate demo_reach (.predicate "c" []) (Declared.const "c" "depot" (by decide)) 3
  rw [h, h' trivial]

/-! ### C20 -/

/-- C20 in full: for every history of declarations and re-parentings, `is_subtype` returns, and says whether the
second sort is reached from the first one by following parents. -/
def C20_full : Prop := ∀ L, LReach LOp.noForeign L → ∀ t s, (L.sorts t).isSome → (L.sorts s).isSome →
  (∃ n r, isSubtype n L t s = some r) ∧
  ∀ n b L', isSubtype n L t s = some (b, L') → (b = true ↔ Star L.ParentOf t s)

/-- C20 for hierarchies built by declarations (every history without explicit re-parenting). -/
theorem C20_subtype_partial {L} (h : LReach LOp.plain L) (t s : String) :
    (∃ n r, isSubtype n L t s = some r) ∧
    ∀ n b L', isSubtype n L t s = some (b, L') → (b = true ↔ Star L.ParentOf t s) := by
  have hi := (domInv_reach h).tree
  refine ⟨isSubtype_terminates hi t s, fun n b L' hs => ?_⟩
  rw [isSubtype_spec hi.hier hs]
  exact ⟨Star.mono hi.histPar, Star.mono hi.hier.parHist⟩

/-- The query changes nothing a later query could see. -/
theorem C20_query_pure {L} (h : LReach LOp.noForeign L) {t s n b L'} (hs : isSubtype n L t s = some (b, L')) :
    L'.parent = L.parent ∧ L'.anc = L.anc ∧ L'.sorts = L.sorts ∧ L'.dom = L.dom ∧ L'.consts = L.consts ∧
      L'.index = L.index := by
  obtain ⟨_, h2, _, h4, h5, h6, h7, h8⟩ := hier_isSubtype (hier_reach h) hs
  exact ⟨h2, h4, h5, h6, h7, h8⟩

/-- C20: in declared hierarchies the relation is a partial order. -/
theorem C20_partial_order {L} (h : LReach LOp.plain L) :
    (∀ t, Star L.ParentOf t t) ∧
    (∀ t u s, Star L.ParentOf t u → Star L.ParentOf u s → Star L.ParentOf t s) ∧
    (∀ t s, Star L.ParentOf t s → Star L.ParentOf s t → t = s) := by
  obtain ⟨r, hr⟩ := (domInv_reach h).tree.rank
  have hst : ∀ a b, Star L.ParentOf a b → a = b ∨ r b < r a := by
    intro a b h
    induction h with
    | refl => exact Or.inl rfl
    | step a b c h1 _ ih =>
      have := hr a b h1
      rcases ih with rfl | ih
      · exact Or.inr this
      · exact Or.inr (by omega)
  refine ⟨fun t => .refl t, fun t u s => Star.trans, fun t s h1 h2 => ?_⟩
  rcases hst _ _ h1 with h | h
  · exact h
  · rcases hst _ _ h2 with h' | h'
    · exact h'.symm
    · omega

/-- C20: and every sort has at most one parent, so it is a forest. -/
theorem C20_tree {L : Lang} {s p q : String} (h1 : L.ParentOf s p) (h2 : L.ParentOf s q) : p = q := by
  unfold Lang.ParentOf at h1 h2; rw [h1] at h2; cases h2; rfl

/-- What happens with re-parenting: `is_subtype` answers according to all parents a sort has ever had. -/
theorem C20_history {L} (h : LReach LOp.noForeign L) {t s n b L'} (hs : isSubtype n L t s = some (b, L')) :
    (b = true ↔ Star (fun a b => (a, b) ∈ L.hist) t s) :=
  isSubtype_spec (hier_reach h) hs

/-- Re-parenting leaves the old parent in place as a supertype. -/
def staleOps : List LOp := [.sort "A" "object", .sort "B" "object", .sort "C" "A"]
def staleLang : Lang := (runL 5 Lang.init staleOps).getD Lang.init
def staleLang2 : Lang := ((lstep 5 staleLang (.setParent "C" "B")).map (·.1)).getD staleLang

theorem stale_reach : LReach LOp.noForeign staleLang := by
  have : runL 5 Lang.init staleOps = some staleLang := by
    unfold staleLang
    have h : (runL 5 Lang.init staleOps).isSome := by decide
    cases h' : runL 5 Lang.init staleOps with
    | none => rw [h'] at h; cases h
    | some L => rfl
  exact runL_reach 5 staleOps .init (by simp [staleOps, LOp.noForeign]) this

theorem stale_step : ∃ e, lstep 5 staleLang (.setParent "C" "B") = some (staleLang2, e) := by
  have h : (lstep 5 staleLang (.setParent "C" "B")).isSome := by decide
  unfold staleLang2
  cases h' : lstep 5 staleLang (.setParent "C" "B") with
  | none => rw [h'] at h; cases h
  | some r => exact ⟨r.2, rfl⟩

theorem stale_reach2 : LReach LOp.noForeign staleLang2 := by
  obtain ⟨e, he⟩ := stale_step
  refine reach_of_step 5 stale_reach (op := .setParent "C" "B") trivial ?_ ?_ he
  · rintro s p h; cases h; decide
  · rintro s p h; cases h

theorem stale_not_star : ¬ Star staleLang2.ParentOf "C" "A" := by
  have key : ∀ a c, Star staleLang2.ParentOf a c → a = "C" ∨ a = "B" ∨ a = "object" → c ≠ "A" := by
    intro a c h
    induction h with
    | refl => rintro (rfl | rfl | rfl) <;> decide
    | step a b c h1 _ ih =>
      intro ha
      apply ih
      unfold Lang.ParentOf at h1
      rcases ha with rfl | rfl | rfl
      · have h3 : staleLang2.parent "C" = some (some "B") := by decide
        rw [h3] at h1; cases h1; simp
      · have h3 : staleLang2.parent "B" = some (some "object") := by decide
        rw [h3] at h1; cases h1; simp
      · have h3 : staleLang2.parent "object" = some none := by decide
        rw [h3] at h1; cases h1
  intro h; exact key _ _ h (Or.inl rfl) rfl

/-- The full statement is false: after `set_parent(C, B, overwrite=True)` the old parent `A` of `C` is still
reported as a supertype. -/
theorem C20_refuted : ¬ C20_full := by
  intro h
  have h1 := (h staleLang2 stale_reach2 "C" "A" (by decide) (by decide)).2
  have hs : ∃ b L', isSubtype 5 staleLang2 "C" "A" = some (b, L') ∧ b = true := by
    have h2 : "A" ∈ staleLang2.anc "C" := by decide
    exact ⟨true, staleLang2, by unfold isSubtype; rw [if_neg (by decide), if_pos h2], rfl⟩
  obtain ⟨b, L', hs, rfl⟩ := hs
  exact stale_not_star ((h1 5 true L' hs).mp rfl)

/-! `is_subtype` can also run forever after a re-parenting that leaves stale ancestors in a cycle. -/

theorem connLoop_hang {L : Lang} {goal : String} (S : List String)
    (hclosed : ∀ x ∈ S, ∃ y ∈ S, y ∈ L.anc x) :
    ∀ n opn, (∃ x ∈ S, x ∈ opn) → connLoop L goal n opn ≠ some false := by
  intro n opn ⟨x, hxS, hx⟩ hf
  -- a `false` answer would require the finite stack to empty, contradicting that S keeps feeding itself
  induction n generalizing opn x with
  | zero => cases opn with | nil => simp at hx | cons a l => simp [connLoop] at hf
  | succ n ih =>
    cases opn with
    | nil => simp at hx
    | cons t opn =>
      simp only [connLoop] at hf
      split at hf
      · cases hf
      · rcases List.mem_cons.mp hx with rfl | hx
        · obtain ⟨y, hy, hya⟩ := hclosed x hxS
          exact ih _ y hy ((foldl_set _ _ _).mpr (Or.inr hya)) hf
        · exact ih _ x hxS ((foldl_set _ _ _).mpr (Or.inl hx)) hf

/-- The history `A < B`, then `A` moved below `object`, then `B` moved below `A`. -/
def hangOps : List LOp := [.sort "B" "object", .sort "A" "B", .sort "D" "object"]
def hangLang0 : Lang := (runL 5 Lang.init hangOps).getD Lang.init
def hangLang1 : Lang := ((lstep 5 hangLang0 (.setParent "A" "object")).map (·.1)).getD hangLang0
def hangLang : Lang := ((lstep 5 hangLang1 (.setParent "B" "A")).map (·.1)).getD hangLang1

theorem hang_reach : LReach LOp.noForeign hangLang := by
  have r0 : LReach LOp.noForeign hangLang0 := by
    have : runL 5 Lang.init hangOps = some hangLang0 := by
      unfold hangLang0
      have h : (runL 5 Lang.init hangOps).isSome := by decide
      cases h' : runL 5 Lang.init hangOps with
      | none => rw [h'] at h; cases h
      | some L => rfl
    exact runL_reach 5 hangOps .init (by simp [hangOps, LOp.noForeign]) this
  have r1 : LReach LOp.noForeign hangLang1 := by
    have he : ∃ e, lstep 5 hangLang0 (.setParent "A" "object") = some (hangLang1, e) := by
      have h : (lstep 5 hangLang0 (.setParent "A" "object")).isSome := by decide
      unfold hangLang1
      cases h' : lstep 5 hangLang0 (.setParent "A" "object") with
      | none => rw [h'] at h; cases h
      | some r => exact ⟨r.2, rfl⟩
    obtain ⟨e, he⟩ := he
    refine reach_of_step 5 r0 (op := .setParent "A" "object") trivial ?_ ?_ he
    · rintro s p h; cases h; decide
    · rintro s p h; cases h
  have he : ∃ e, lstep 5 hangLang1 (.setParent "B" "A") = some (hangLang, e) := by
    have h : (lstep 5 hangLang1 (.setParent "B" "A")).isSome := by decide
    unfold hangLang
    cases h' : lstep 5 hangLang1 (.setParent "B" "A") with
    | none => rw [h'] at h; cases h
    | some r => exact ⟨r.2, rfl⟩
  obtain ⟨e, he⟩ := he
  refine reach_of_step 5 r1 (op := .setParent "B" "A") trivial ?_ ?_ he
  · rintro s p h; cases h; decide
  · rintro s p h; cases h

/-- `is_subtype(A, D)` for the unrelated sort `D` of that language never returns. -/
theorem C20_refuted_hang : LReach LOp.noForeign hangLang ∧ (hangLang.sorts "A").isSome ∧ (hangLang.sorts "D").isSome ∧
    ∀ n, isSubtype n hangLang "A" "D" = none := by
  refine ⟨hang_reach, by decide, by decide, fun n => ?_⟩
  have hi := hier_reach hang_reach
  cases h : isSubtype n hangLang "A" "D" with
  | none => rfl
  | some r =>
    exfalso
    obtain ⟨b, L'⟩ := r
    have hb := isSubtype_spec hi h
    have hD : ¬ Star hangLang.HistR "A" "D" := by
      intro hs
      have hh : hangLang.hist = [("B", "A"), ("A", "object"), ("D", "object"), ("A", "B"), ("B", "object")] := by decide
      have key : ∀ a c, Star hangLang.HistR a c → a ≠ "D" → c ≠ "D" := by
        intro a c hac
        induction hac with
        | refl => exact id
        | step a b c h1 _ ih =>
          intro _
          apply ih
          unfold Lang.HistR at h1; rw [hh] at h1
          simp only [List.mem_cons, Prod.mk.injEq, List.not_mem_nil, or_false] at h1
          rcases h1 with ⟨_, rfl⟩ | ⟨_, rfl⟩ | ⟨_, rfl⟩ | ⟨_, rfl⟩ | ⟨_, rfl⟩ <;> decide
      exact key _ _ hs (by decide) rfl
    cases b with
    | true => exact hD (hb.mp rfl)
    | false =>
      unfold isSubtype at h
      rw [if_neg (by decide), if_neg (by decide), if_neg (by decide)] at h
      split at h
      · cases h
      · cases h
      · rename_i hc
        refine connLoop_hang ["A", "B"] ?_ n _ ?_ hc
        · intro x hx
          simp only [List.mem_cons, List.not_mem_nil, or_false] at hx
          rcases hx with rfl | rfl
          · exact ⟨"B", by decide, by decide⟩
          · exact ⟨"A", by decide, by decide⟩
        · exact ⟨"B", by decide, by decide⟩

/-! ### C44: calls return -/

/-- C44: every declaration and query on a language built by declarations returns. -/
theorem C44_declarations_return_partial {L} (h : LReach LOp.plain L) (op : LOp) (hp : op.plain)
    (hb : ∀ s p, op = .attachBuiltin s p → (L.sorts p).isSome) : ∃ n r, lstep n L op = some r :=
  step_terminates (domInv_reach h) (nameInv_reach h) op hp hb

/-- C44 in full, with re-parenting. -/
def C44_full : Prop := ∀ L, LReach LOp.noForeign L → ∀ op : LOp, op.noForeign →
  (∀ s p, op = .setParent s p → (L.sorts s).isSome ∧ (L.sorts p).isSome) →
  (∀ s p, op = .attachBuiltin s p → (L.sorts p).isSome) → ∃ n r, lstep n L op = some r

/-- Setting as parent of a sort the sort itself or one of its descendants never returns (no error is raised). -/
theorem C44_cycle_hangs {L : Lang} {s p : String} (h : Star L.ParentOf p s) (n : Nat) :
    lstep n L (.setParent s p) = none := setParent_cycle h n

theorem C44_refuted : ¬ C44_full := by
  intro h
  obtain ⟨n, r, h1⟩ := h demoLang
    (by
      have : ∀ L, LReach LOp.plain L → LReach LOp.noForeign L := by
        intro L hL
        induction hL with
        | init => exact .init
        | step L op n L' e _ hp h1 h2 hs ih =>
          exact .step L op n L' e ih (by cases op <;> simp_all [LOp.plain, LOp.noForeign]) h1 h2 hs
      exact this _ demo_reach)
    (.setParent "place" "depot") trivial (by rintro s p h; cases h; decide) (by rintro s p h; cases h)
  rw [C44_cycle_hangs (.single (by decide : demoLang.parent "depot" = some (some "place"))) n] at h1
  cases h1

/-! ### C21 -/

/-- C21 in full: in every language, the domain of a (non-interval) sort consists of the constants whose sort is one of
its subsorts. -/
def C21_full : Prop := ∀ L, LReach LOp.noForeign L → ∀ c x, ¬ L.isInterval x →
  (c ∈ L.dom x ↔ ∃ s, L.consts c = some s ∧ ¬ L.isInterval s ∧ Star L.ParentOf s x)

/-- C21 for languages built by declarations in any order. -/
theorem C21_domains_partial {L} (h : LReach LOp.plain L) (c x : String) (hx : ¬ L.isInterval x) :
    c ∈ L.dom x ↔ ∃ s, L.consts c = some s ∧ ¬ L.isInterval s ∧ Star L.ParentOf s x := by
  rw [(domInv_reach h).dom c x]
  constructor
  · rintro ⟨s, h1, h2, _, h4⟩; exact ⟨s, h1, h2, h4⟩
  · rintro ⟨s, h1, h2, h4⟩; exact ⟨s, h1, h2, hx, h4⟩

/-- C21 as a statement about one call: declaring constant `c` of sort `s` adds `c` to the domains of the
supersorts of `s` and changes no domain otherwise. -/
theorem C21_constant_call {L} (h : LReach LOp.plain L) {k c s ok L' i} (hs : L.sorts s = some i)
    (hni : i.interval = false) (hnb : i.builtin = false)
    (hc : lstep k L (.constant c s ok) = some (L', none)) (d x : String) (hx : ¬ L.isInterval x) :
    d ∈ L'.dom x ↔ d ∈ L.dom x ∨ (d = c ∧ Star L.ParentOf s x) := by
  have ht := (domInv_reach h).tree
  simp only [lstep, declConstant, hs, hnb, hni] at hc
  split at hc
  · rename_i h'; cases h'
  · split at hc
    · cases hc
    · split at hc
      · cases hc
      · rename_i dom' hd
        · cases hc
          have hns : ¬ L.isInterval s := by
            rintro ⟨j, h1, h2⟩; rw [hs] at h1; cases h1; rw [hni] at h2; cases h2
          simp only
          rw [extend_spec L k L.dom s c dom' hd x d, niReach_tree ht hns]
          simp [hx]

/-- Intervals have no stored domain in declared languages. -/
theorem C21_interval_dom {L} (h : LReach LOp.plain L) (c x : String) (hx : L.isInterval x) : c ∉ L.dom x := by
  rw [(domInv_reach h).dom c x]
  rintro ⟨_, _, _, h3, _⟩; exact h3 hx

/-- Non-vacuity: in `demoLang`, `c` belongs to `depot`, `place` and `object`. -/
example : "c" ∈ demoLang.dom "depot" ∧ "c" ∈ demoLang.dom "place" ∧ "c" ∈ demoLang.dom "object" := by decide
example : ¬ demoLang.isInterval "place" := by
  rw [← isIntervalB_iff]; decide

/-- A constant declared before its sort is re-parented. -/
def lateOps : List LOp := [.sort "A" "object", .sort "B" "object", .sort "C" "A", .constant "c" "C" true]
def lateLang : Lang := (runL 5 Lang.init lateOps).getD Lang.init
def lateLang2 : Lang := ((lstep 5 lateLang (.setParent "C" "B")).map (·.1)).getD lateLang

theorem late_reach2 : LReach LOp.noForeign lateLang2 := by
  have r0 : LReach LOp.noForeign lateLang := by
    have : runL 5 Lang.init lateOps = some lateLang := by
      unfold lateLang
      have h : (runL 5 Lang.init lateOps).isSome := by decide
      cases h' : runL 5 Lang.init lateOps with
      | none => rw [h'] at h; cases h
      | some L => rfl
    exact runL_reach 5 lateOps .init (by simp [lateOps, LOp.noForeign]) this
  have he : ∃ e, lstep 5 lateLang (.setParent "C" "B") = some (lateLang2, e) := by
    have h : (lstep 5 lateLang (.setParent "C" "B")).isSome := by decide
    unfold lateLang2
    cases h' : lstep 5 lateLang (.setParent "C" "B") with
    | none => rw [h'] at h; cases h
    | some r => exact ⟨r.2, rfl⟩
  obtain ⟨e, he⟩ := he
  refine reach_of_step 5 r0 (op := .setParent "C" "B") trivial ?_ ?_ he
  · rintro s p h; cases h; decide
  · rintro s p h; cases h

/-- The full statement is false: re-parenting a sort does not move the constants it already has. -/
theorem C21_refuted : ¬ C21_full := by
  intro h
  have h1 := (h lateLang2 late_reach2 "c" "B" (by rw [← isIntervalB_iff]; decide)).mpr
    ⟨"C", by decide, by rw [← isIntervalB_iff]; decide, .single (by decide : lateLang2.parent "C" = some (some "B"))⟩
  have h2 : "c" ∉ lateLang2.dom "B" := by decide
  exact h2 h1

/-! ### C45: the interval call -/

/-- C45: the `interval` call succeeds exactly for a new name, one of the three numeric sorts as parent and a lower bound
smaller than the upper bound; otherwise it raises. -/
theorem C45_interval_call {L} (h : LReach LOp.plain L) (name parent : String) (lb ub : Int) :
    (∃ k L', lstep k L (.interval name parent lb ub) = some (L', none)) ↔
      (∀ o, ¬ Declared L name o) ∧ (parent = "Real" ∨ parent = "Natural" ∨ parent = "Integer") ∧
      ((L.sorts "Real").isSome ∧ (L.sorts "Natural").isSome ∧ (L.sorts "Integer").isSome) ∧ lb < ub := by
  have hni := nameInv_reach h
  have hidx : L.index name = none ↔ ∀ o, ¬ Declared L name o := by
    simp only [declared_iff_index hni]
    cases L.index name <;> simp
  rw [← hidx]
  constructor
  · rintro ⟨k, L', hs⟩
    simp only [lstep, declInterval] at hs
    split at hs
    · cases hs
    · rename_i hc
      split at hs
      · cases hs
      · split at hs
        · cases hs
        · rename_i hreg
          split at hs
          · cases hs
          · rename_i hpar
            split at hs
            · cases hs
            · rename_i hb
              refine ⟨(checkName_none hc).2, ?_, ?_, by omega⟩
              · tauto
              · cases h1 : L.sorts "Real" <;> cases h2 : L.sorts "Natural" <;> cases h3 : L.sorts "Integer" <;>
                  simp [h1, h2, h3] at hreg ⊢
  · rintro ⟨hn, hp, ⟨r1, r2, r3⟩, hb⟩
    have hns : L.sorts name = none := by
      have := hni.sort name; rw [hn] at this; simpa using this
    have hps : (L.sorts parent).isSome := by rcases hp with rfl | rfl | rfl <;> assumption
    obtain ⟨k, ⟨L', e⟩, hk⟩ := attach_terminates (domInv_reach h).tree hps hns ⟨true, false⟩
    have he := (attach_ok (domInv_reach h).tree.hier hps hns hk).1
    subst he
    refine ⟨k, L', ?_⟩
    simp only [lstep, declInterval]
    have hc : checkName L (L.sorts name).isSome name = none := by simp [checkName, hns, hn]
    rw [hc]
    simp only
    rw [if_neg, if_neg, if_neg, if_neg]
    · exact hk
    · omega
    · tauto
    · cases h1 : L.sorts "Real" <;> cases h2 : L.sorts "Natural" <;> cases h3 : L.sorts "Integer" <;>
        simp [h1, h2, h3] at r1 r2 r3 ⊢
    · cases h1 : L.sorts parent <;> simp [h1] at hps ⊢

/-- A language with the numeric sorts, in which the call succeeds. -/
def numLang : Lang :=
  (((lstep 5 Lang.init (.attachBuiltin "Real" "object")).bind (fun r => lstep 5 r.1 (.attachBuiltin "Integer" "Real"))).bind
    (fun r => (lstep 5 r.1 (.attachBuiltin "Natural" "Integer")).map (·.1))).getD Lang.init

example : (numLang.sorts "Real").isSome ∧ (numLang.sorts "Natural").isSome ∧ (numLang.sorts "Integer").isSome := by decide

end Tarski

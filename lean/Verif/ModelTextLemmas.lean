import Verif.ModelText
import Verif.ChangesLemmas
import Verif.Props.Model
import Verif.Props.SasWriter
import Mathlib.Data.List.Nodup
import Mathlib.Data.List.Forall2
import Mathlib.Data.List.Perm.Basic
import Mathlib.Tactic.Common
namespace Tarski

/-! ### Dictionaries -/

theorem mem_keys_dinsert {α β} [DecidableEq α] (d : List (α × β)) (a x : α) (b : β) :
    x ∈ (dinsert d a b).map Prod.fst ↔ x = a ∨ x ∈ d.map Prod.fst := by
  have h1 := dlookup_none (dinsert d a b) x
  have h2 := dlookup_none d x
  rw [dlookup_dinsert] at h1
  by_cases e : a = x
  · subst e; simpa using h1
  · rw [if_neg e, h2] at h1
    have : x ≠ a := fun h => e h.symm
    simp only [this, false_or]
    exact not_iff_not.1 h1.symm

theorem mem_dinsert {α β} [DecidableEq α] {d : List (α × β)} {a : α} {b : β} {kv : α × β}
    (h : kv ∈ dinsert d a b) : kv = (a, b) ∨ kv ∈ d := by
  induction d with
  | nil => simpa [dinsert] using h
  | cons x d ih =>
    obtain ⟨k, v⟩ := x
    simp only [dinsert] at h
    split at h
    · rename_i e
      rcases List.mem_cons.1 h with h | h
      · subst h; left; simp [e]
      · right; simp [h]
    · rcases List.mem_cons.1 h with h | h
      · right; simp [h]
      · exact (ih h).imp id (fun h => by simp [h])

theorem nodup_dinsert {α β} [DecidableEq α] {d : List (α × β)} {a : α} {b : β} (h : (d.map Prod.fst).Nodup) :
    ((dinsert d a b).map Prod.fst).Nodup := by
  induction d with
  | nil => simp [dinsert]
  | cons x d ih =>
    obtain ⟨k, v⟩ := x
    simp only [List.map_cons, List.nodup_cons] at h
    simp only [dinsert]
    split
    · simpa using h
    · rename_i e
      simp only [List.map_cons, List.nodup_cons, mem_keys_dinsert]
      exact ⟨fun h' => h'.elim e h.1, ih h.2⟩

theorem dlookup_mem_nodup {α β} [DecidableEq α] {d : List (α × β)} (h : (d.map Prod.fst).Nodup) {a : α} {b : β}
    (hm : (a, b) ∈ d) : dlookup d a = some b := by
  induction d with
  | nil => simp at hm
  | cons x d ih =>
    obtain ⟨k, v⟩ := x
    simp only [List.map_cons, List.nodup_cons] at h
    simp only [dlookup]
    rcases List.mem_cons.1 hm with e | hm
    · cases e; simp
    · rw [if_neg, ih h.2 hm]
      rintro rfl
      exact h.1 (List.mem_map.2 ⟨_, hm, rfl⟩)

theorem dlookup_iff {α β} [DecidableEq α] {d : List (α × β)} (h : (d.map Prod.fst).Nodup) {a : α} {b : β} :
    dlookup d a = some b ↔ (a, b) ∈ d := ⟨dlookup_some, dlookup_mem_nodup h⟩

theorem nodup_ptAdd {α} [DecidableEq α] {s : List α} (h : s.Nodup) (a : α) : (ptAdd s a).Nodup := by
  unfold ptAdd; split
  · exact h
  · rename_i hn
    rw [List.nodup_append]
    refine ⟨h, by simp, fun x hx y hy e => ?_⟩
    rw [List.mem_singleton] at hy; subst hy; subst e; exact hn hx

/-! ### States that histories of calls lead to -/

/-- The sorts of the constants fit. -/
abbrev FitSorts (L : MLang) (cs : List Const) (ss : List String) : Prop :=
  List.Forall₂ (fun (c : Const) s => L.isSub c.sort s = true) cs ss

structure Tidy (L : MLang) (m : MState) : Prop where
  pkeys : (m.preds.map Prod.fst).Nodup
  fkeys : (m.fns.map Prod.fst).Nodup
  pexts : ∀ kv ∈ m.preds, ∃ p, kv.1 = L.psig p ∧ kv.2.Nodup ∧ ∀ pt ∈ kv.2, FitSorts L pt (L.psorts p)
  fexts : ∀ kv ∈ m.fns, ∃ f, kv.1 = L.fsig f ∧ (kv.2.map Prod.fst).Nodup ∧ ∀ pv ∈ kv.2, FitSorts L (pv.1 ++ [pv.2]) (L.fsorts f)

theorem Tidy.empty (L : MLang) : Tidy L MState.empty := ⟨by simp [MState.empty], by simp [MState.empty], by simp [MState.empty], by simp [MState.empty]⟩

theorem Tidy.setExt {L : MLang} {m : MState} (h : Tidy L m) (p : String) (ext : List (List Const)) (hn : ext.Nodup)
    (hf : ∀ pt ∈ ext, FitSorts L pt (L.psorts p)) : Tidy L { m with preds := dinsert m.preds (L.psig p) ext } := by
  refine ⟨nodup_dinsert h.pkeys, h.fkeys, fun kv hkv => ?_, h.fexts⟩
  rcases mem_dinsert hkv with rfl | hkv
  · exact ⟨p, rfl, hn, hf⟩
  · exact h.pexts kv hkv

theorem Tidy.ext {L : MLang} {m : MState} (h : Tidy L m) {p : String} {ext : List (List Const)}
    (he : dlookup m.preds (L.psig p) = some ext) : ext.Nodup ∧ ∀ pt ∈ ext, FitSorts L pt (L.psorts p) := by
  obtain ⟨q, e, h1, h2⟩ := h.pexts _ (dlookup_some he)
  rw [psig_inj] at e; subst e
  exact ⟨h1, h2⟩

theorem Tidy.fext {L : MLang} {m : MState} (h : Tidy L m) {f : String} {d : List (List Const × Const)}
    (he : dlookup m.fns (L.fsig f) = some d) : (d.map Prod.fst).Nodup ∧ ∀ pv ∈ d, FitSorts L (pv.1 ++ [pv.2]) (L.fsorts f) := by
  obtain ⟨q, e, h1, h2⟩ := h.fexts _ (dlookup_some he)
  rw [fsig_inj] at e; subst e
  exact ⟨h1, h2⟩

theorem Tidy.change {L : MLang} {m : MState} (h : Tidy L m) (ch : Change)
    (hch : ∀ p pt, ch = .add p pt → FitSorts L pt (L.psorts p))
    (hset : ∀ f pt c, ch = .set f pt c → FitSorts L (pt ++ [c]) (L.fsorts f)) : Tidy L (ch.apply L m) := by
  cases ch with
  | add p pt =>
    simp only [Change.apply]
    have hx : ((dlookup m.preds (L.psig p)).getD []).Nodup ∧
        ∀ x ∈ ((dlookup m.preds (L.psig p)).getD []), FitSorts L x (L.psorts p) := by
      cases hd : dlookup m.preds (L.psig p) with
      | none => simp
      | some ext => exact h.ext hd
    refine h.setExt p _ (nodup_ptAdd hx.1 pt) fun x hxm => ?_
    rcases (mem_ptAdd ..).1 hxm with rfl | hxm
    · exact hch p x rfl
    · exact hx.2 x hxm
  | del p pt =>
    simp only [Change.apply]
    cases hd : dlookup m.preds (L.psig p) with
    | none => exact h
    | some ext =>
      refine h.setExt p _ ((h.ext hd).1.filter _) fun x hxm => ?_
      exact (h.ext hd).2 x ((mem_ptDiscard ..).1 hxm).1
  | set f pt c =>
    simp only [Change.apply]
    have hx : (((dlookup m.fns (L.fsig f)).getD []).map Prod.fst).Nodup ∧
        ∀ x ∈ ((dlookup m.fns (L.fsig f)).getD []), FitSorts L (x.1 ++ [x.2]) (L.fsorts f) := by
      cases hd : dlookup m.fns (L.fsig f) with
      | none => simp
      | some ext => exact h.fext hd
    refine ⟨h.pkeys, nodup_dinsert h.fkeys, h.pexts, fun kv hkv => ?_⟩
    rcases mem_dinsert hkv with rfl | hkv
    · refine ⟨f, rfl, nodup_dinsert hx.1, fun pv hpv => ?_⟩
      rcases mem_dinsert hpv with rfl | hpv
      · exact hset f pt c rfl
      · exact hx.2 pv hpv
    · exact h.fexts kv hkv

theorem nodup_ddelete {α β} [DecidableEq α] {d : List (α × β)} (h : (d.map Prod.fst).Nodup) (a : α) :
    ((ddelete d a).map Prod.fst).Nodup := (List.filter_sublist.map _).nodup h

theorem Tidy.removeSymbol {L : MLang} {m : MState} (h : Tidy L m) (sig : List String) : Tidy L (m.removeSymbol sig) := by
  unfold MState.removeSymbol
  split
  · exact ⟨h.pkeys, nodup_ddelete h.fkeys sig, h.pexts, fun kv hkv => h.fexts kv (List.mem_filter.1 hkv).1⟩
  · split
    · exact ⟨nodup_ddelete h.pkeys sig, h.fkeys, fun kv hkv => h.pexts kv (List.mem_filter.1 hkv).1, h.fexts⟩
    · exact h

theorem add_change {L : MLang} {m m' : MState} {p : String} {args : List Arg} (h : m.add L (.user p) args = (m', none)) :
    ∃ pt, checkAssignment L (L.psorts p) args = .ok pt ∧ m' = (Change.add p pt).apply L m := by
  simp only [MState.add] at h
  split at h
  · simp at h
  · rename_i pt hpt
    refine ⟨pt, hpt, ?_⟩
    simp only [Prod.mk.injEq, and_true] at h
    rw [← h, Change.apply]

theorem fit_dropLast {L : MLang} {cs : List Const} {ss : List String} (h : FitSorts L cs ss) (hne : cs ≠ []) :
    FitSorts L (cs.dropLast ++ [cs.getLastD default]) ss := by
  have : cs.dropLast ++ [cs.getLastD default] = cs := by
    rw [List.getLastD_eq_getLast?, List.getLast?_eq_getLast_of_ne_nil hne]
    simp [List.dropLast_append_getLast hne]
  rwa [this]

theorem Tidy.step {L : MLang} {m : MState} (h : Tidy L m) (o : MOp) : Tidy L (m.step L o).1 := by
  cases o with
  | add p args =>
    cases p with
    | cmp c => exact h
    | user p =>
      simp only [MState.step, MState.add]
      split
      · exact h
      · rename_i pt hpt
        have := h.change (.add p pt) (fun q x e => by
          cases e; exact ((checkAssignment_iff ..).1 hpt).sorted) (fun _ _ _ e => by cases e)
        simpa only [Change.apply] using this
  | remove p args =>
    simp only [MState.step, MState.remove]
    split
    · exact h
    · rename_i ext hd
      split
      · exact h
      · exact h
      · split
        · exact h.setExt p _ ((h.ext hd).1.filter _) fun x hx => (h.ext hd).2 x ((mem_ptDiscard ..).1 hx).1
        · exact h
  | discard p args =>
    simp only [MState.step, MState.discard]
    split
    · exact h
    · rename_i ext hd
      split
      · exact h
      · exact h
      · exact h.setExt p _ ((h.ext hd).1.filter _) fun x hx => (h.ext hd).2 x ((mem_ptDiscard ..).1 hx).1
  | set f b args v =>
    simp only [MState.step, MState.set]
    split
    · exact h
    · split
      · exact h
      · split
        · exact h
        · rename_i cs hcs
          split
          · exact h
          · rename_i hv
            rw [if_neg hv] at hcs
            have hp := (checkAssignment_iff ..).1 hcs
            have := h.change (.set f cs.dropLast (cs.getLastD default)) (fun _ _ e => by cases e) (fun g x c e => by
              cases e
              refine fit_dropLast hp.sorted ?_
              have := hp.length
              rintro rfl
              simp at this)
            simpa only [Change.apply] using this
  | removePred p => exact h.removeSymbol _
  | removeFun f => exact h.removeSymbol _

theorem Tidy.run {L : MLang} (ops : List MOp) {m : MState} (h : Tidy L m) : Tidy L (m.run L ops) := by
  unfold MState.run
  induction ops generalizing m with
  | nil => exact h
  | cons o ops ih => exact ih (h.step o)

/-! ### The atoms -/

theorem comprehension_ok {α β : Type} {f : α → Except Err β} {g : α → β} {l : List α} (h : ∀ a ∈ l, f a = .ok (g a)) :
    comprehension f l = .ok (l.map g) := by
  induction l with
  | nil => rfl
  | cons a l ih =>
    simp only [comprehension, h a (by simp), ih fun b hb => h b (by simp [hb]), List.map_cons]

/-- The atoms listed without the checks. -/
def rawAtoms (m : MState) : List TrueAtom :=
  (m.preds.map (fun kv => kv.2.map (fun pt => (kv.1.headD "", pt, (none : Option Const))))).flatten ++
  (m.fns.map (fun kv => kv.2.map (fun pv => (kv.1.headD "", pv.1, some pv.2)))).flatten

theorem pointDenotes_of_fit {L : MLang} {cs : List Const} {ss : List String} (h : FitSorts L cs ss) :
    PointDenotes L (cs.map .const) ss cs := by
  induction h with
  | nil => exact .nil
  | cons h _ ih => exact .cons (.const h) ih

theorem fit_init {L : MLang} {cs : List Const} {c : Const} {ss : List String} (h : FitSorts L (cs ++ [c]) ss) :
    FitSorts L cs ss.dropLast := by
  induction cs generalizing ss with
  | nil =>
    cases h with
    | cons _ h => cases h; exact .nil
  | cons x cs ih =>
    cases h with
    | @cons _ s _ ss h1 h2 =>
      have := ih h2
      have hne : ss ≠ [] := by rintro rfl; cases cs <;> cases h2
      rw [List.dropLast_cons_of_ne_nil hne]
      exact .cons h1 this

theorem asAtoms_eq {L : MLang} {m : MState} (h : Tidy L m) : asAtoms L m = .ok (rawAtoms m) := by
  have h1 : comprehension (fun kv : List String × List (List Const) => comprehension (trueAtom L (kv.1.headD "")) kv.2) m.preds =
      .ok (m.preds.map fun kv => kv.2.map fun pt => (kv.1.headD "", pt, none)) := by
    refine comprehension_ok fun kv hkv => comprehension_ok fun pt hpt => ?_
    obtain ⟨p, e, _, hf⟩ := h.pexts kv hkv
    have e' : kv.1.headD "" = p := by rw [e]; rfl
    simp only [trueAtom, e', (checkAssignment_iff ..).2 (pointDenotes_of_fit (hf pt hpt))]
  have h2 : comprehension (fun kv : List String × List (List Const × Const) =>
      comprehension (fun pv => trueValue L (kv.1.headD "") pv.1 pv.2) kv.2) m.fns =
      .ok (m.fns.map fun kv => kv.2.map fun pv => (kv.1.headD "", pv.1, some pv.2)) := by
    refine comprehension_ok fun kv hkv => comprehension_ok fun pv hpv => ?_
    obtain ⟨f, e, _, hf⟩ := h.fexts kv hkv
    have e' : kv.1.headD "" = f := by rw [e]; rfl
    simp only [trueValue, e', (checkAssignment_iff ..).2 (pointDenotes_of_fit (fit_init (hf pv hpv)))]
  simp only [asAtoms, h1, h2, rawAtoms]

theorem mem_rawAtoms_pred {L : MLang} {m : MState} (h : Tidy L m) (p : String) (pt : List Const) :
    (p, pt, none) ∈ rawAtoms m ↔ m.holds L p pt = true := by
  rw [holds_iff]
  simp only [rawAtoms, List.mem_append, List.mem_flatten, List.mem_map]
  constructor
  · rintro (⟨_, ⟨kv, hkv, rfl⟩, h2⟩ | ⟨_, ⟨kv, hkv, rfl⟩, h2⟩)
    · obtain ⟨x, hx, e⟩ := List.mem_map.1 h2
      obtain ⟨q, hq, _, _⟩ := h.pexts kv hkv
      simp only [Prod.mk.injEq, and_true] at e
      obtain ⟨e1, rfl⟩ := e
      have : q = p := by rw [← e1, hq]; rfl
      subst this
      exact ⟨kv.2, dlookup_mem_nodup h.pkeys (by rw [← hq]; exact hkv), hx⟩
    · obtain ⟨x, hx, e⟩ := List.mem_map.1 h2
      simp at e
  · rintro ⟨ext, he, hp⟩
    refine .inl ⟨_, ⟨_, dlookup_some he, rfl⟩, List.mem_map.2 ⟨pt, hp, rfl⟩⟩

theorem mem_rawAtoms_fun {L : MLang} {m : MState} (h : Tidy L m) (f : String) (pt : List Const) (c : Const) :
    (f, pt, some c) ∈ rawAtoms m ↔ m.value L f pt = .ok c := by
  rw [value_iff]
  simp only [rawAtoms, List.mem_append, List.mem_flatten, List.mem_map]
  constructor
  · rintro (⟨_, ⟨kv, hkv, rfl⟩, h2⟩ | ⟨_, ⟨kv, hkv, rfl⟩, h2⟩)
    · obtain ⟨x, hx, e⟩ := List.mem_map.1 h2
      simp at e
    · obtain ⟨x, hx, e⟩ := List.mem_map.1 h2
      obtain ⟨q, hq, hn, _⟩ := h.fexts kv hkv
      simp only [Prod.mk.injEq, Option.some.injEq] at e
      obtain ⟨e1, rfl, rfl⟩ := e
      have : q = f := by rw [← e1, hq]; rfl
      subst this
      exact ⟨kv.2, dlookup_mem_nodup h.fkeys (by rw [← hq]; exact hkv), dlookup_mem_nodup hn hx⟩
  · rintro ⟨d, he, hp⟩
    exact .inr ⟨_, ⟨_, dlookup_some he, rfl⟩, List.mem_map.2 ⟨(pt, c), dlookup_some hp, rfl⟩⟩

theorem nodup_rawAtoms {L : MLang} {m : MState} (h : Tidy L m) : (rawAtoms m).Nodup := by
  unfold rawAtoms
  rw [List.nodup_append]
  refine ⟨?_, ?_, ?_⟩
  · rw [List.nodup_flatten]
    constructor
    · intro l hl
      obtain ⟨kv, hkv, rfl⟩ := List.mem_map.1 hl
      obtain ⟨p, _, hn, _⟩ := h.pexts kv hkv
      exact hn.map (fun a b e => by simpa using e)
    · rw [List.pairwise_map]
      have := h.pkeys
      rw [List.Nodup, List.pairwise_map] at this
      refine this.imp_of_mem fun {a b} ha hb hab x hx hx' => hab ?_
      obtain ⟨p, hp, _, _⟩ := h.pexts a ha
      obtain ⟨q, hq, _, _⟩ := h.pexts b hb
      obtain ⟨_, _, rfl⟩ := List.mem_map.1 hx
      obtain ⟨_, _, e⟩ := List.mem_map.1 hx'
      simp only [Prod.mk.injEq, and_true] at e
      have e1 := e.1
      rw [hp, hq] at e1 ⊢
      rw [psig_inj]
      exact e1.symm
  · rw [List.nodup_flatten]
    constructor
    · intro l hl
      obtain ⟨kv, hkv, rfl⟩ := List.mem_map.1 hl
      obtain ⟨p, _, hn, _⟩ := h.fexts kv hkv
      exact (List.Nodup.of_map _ hn).map (fun a b e => by
        simp only [Prod.mk.injEq, Option.some.injEq, true_and] at e
        exact Prod.ext e.1 e.2)
    · rw [List.pairwise_map]
      have := h.fkeys
      rw [List.Nodup, List.pairwise_map] at this
      refine this.imp_of_mem fun {a b} ha hb hab x hx hx' => hab ?_
      obtain ⟨p, hp, _, _⟩ := h.fexts a ha
      obtain ⟨q, hq, _, _⟩ := h.fexts b hb
      obtain ⟨_, _, rfl⟩ := List.mem_map.1 hx
      obtain ⟨_, _, e⟩ := List.mem_map.1 hx'
      simp only [Prod.mk.injEq] at e
      have e1 := e.1
      rw [hp, hq] at e1 ⊢
      rw [fsig_inj]
      exact e1.symm
  · intro x hx y hy e
    subst e
    obtain ⟨_, h1, h2⟩ := List.mem_flatten.1 hx
    obtain ⟨_, _, rfl⟩ := List.mem_map.1 h1
    obtain ⟨_, _, rfl⟩ := List.mem_map.1 h2
    obtain ⟨_, h1, h2⟩ := List.mem_flatten.1 hy
    obtain ⟨_, _, rfl⟩ := List.mem_map.1 h1
    obtain ⟨_, _, e⟩ := List.mem_map.1 h2
    simp at e

/-! ### Sorting -/

theorem insertText_perm (x : String) (l : List String) : (insertText x l).Perm (x :: l) := by
  induction l with
  | nil => exact .refl _
  | cons y l ih =>
    simp only [insertText]
    split
    · exact .refl _
    · exact (ih.cons y).trans (.swap x y l)

theorem sortTexts_perm (l : List String) : (sortTexts l).Perm l := by
  induction l with
  | nil => exact .refl _
  | cons x l ih => exact (insertText_perm x _).trans (ih.cons x)

theorem insertText_sorted {x : String} {l : List String} (h : l.Pairwise (· ≤ ·)) : (insertText x l).Pairwise (· ≤ ·) := by
  induction l with
  | nil => simp [insertText]
  | cons y l ih =>
    simp only [insertText]
    rw [List.pairwise_cons] at h
    split
    · rename_i hlt
      have hle : x ≤ y := String.not_lt.1 fun hgt => String.lt_irrefl x (String.lt_trans hlt hgt)
      refine List.pairwise_cons.2 ⟨fun z hz => ?_, List.pairwise_cons.2 h⟩
      rcases List.mem_cons.1 hz with rfl | hz
      · exact hle
      · exact String.le_trans hle (h.1 z hz)
    · rename_i hlt
      refine List.pairwise_cons.2 ⟨fun z hz => ?_, ih h.2⟩
      rcases List.mem_cons.1 ((insertText_perm x l).mem_iff.1 hz) with rfl | hz
      · exact String.not_lt.1 hlt
      · exact h.1 z hz

theorem sortTexts_sorted (l : List String) : (sortTexts l).Pairwise (· ≤ ·) := by
  induction l with
  | nil => exact .nil
  | cons x l ih => exact insertText_sorted ih

theorem sortTexts_eq {l l' : List String} (h : l.Perm l') : sortTexts l = sortTexts l' :=
  List.Perm.eq_of_pairwise (fun _ _ _ _ h1 h2 => String.le_antisymm h1 h2) (sortTexts_sorted l) (sortTexts_sorted l')
    (((sortTexts_perm l).trans h).trans (sortTexts_perm l').symm)

end Tarski

import Mathlib.Tactic.Common
import Mathlib.Data.List.Forall2
import Verif.AtomText
import Verif.LPGroundLemmas
import Verif.LanguageLemmas
import Verif.ModelLemmas
/-! C100: atoms as texts. -/
namespace Tarski

/-! ### Specification -/

/-- Parentheses and commas are not white space. -/
def SpaceOK (sp : Char → Bool) : Prop := sp '(' = false ∧ sp ')' = false ∧ sp ',' = false

/-- A name that can be told in a text: no parenthesis or comma, and no white space at its ends. -/
def TextName (sp : Char → Bool) (s : String) : Prop :=
  '(' ∉ s.toList ∧ ')' ∉ s.toList ∧ ',' ∉ s.toList ∧ (∀ c ∈ s.toList.head?, sp c = false) ∧ ∀ c ∈ s.toList.getLast?, sp c = false

/-- A name with white space around it. -/
def Padded (sp : Char → Bool) (a : String) (t : AStr) : Prop := ∃ b b' : AStr, (∀ c ∈ b, sp c = true) ∧ (∀ c ∈ b', sp c = true) ∧ t = b ++ a.toList ++ b'

/-- Texts separated by commas. -/
def sepByComma (l : List AStr) : AStr := (l.intersperse [',']).flatten

/-- The ways to write `p(c₁, …, cₙ)`, n ≥ 1: white space around every name. -/
def AtomWritten (sp : Char → Bool) (p : String) (cs : List String) (t : AStr) : Prop :=
  cs ≠ [] ∧ ∃ p' cs', Padded sp p p' ∧ List.Forall₂ (Padded sp) cs cs' ∧ t = p' ++ ['('] ++ sepByComma cs' ++ [')']

/-- `p(c₁, …, cₙ)` is an atom of the language: a predicate and constants, with sorts below those declared; `pt` are these
constants. -/
def IsAtom (L : Lang) (n : Nat) (p : String) (cs : List String) (pt : List Const) : Prop :=
  ∃ sorts, L.index p = some (.pred p sorts) ∧ List.Forall₂ (fun c (k : Const) => ∃ t, L.index c = some (.const c t) ∧ k = ⟨.str c, t⟩) cs pt ∧
    List.Forall₂ (fun (k : Const) s => L.subB n k.sort s = true) pt sorts

/-! ### Parts of a text -/

theorem pyStrip_pad {sp : Char → Bool} {a b b' : AStr} (hb : ∀ c ∈ b, sp c = true) (hb' : ∀ c ∈ b', sp c = true) (h1 : ∀ c ∈ a.head?, sp c = false)
    (h2 : ∀ c ∈ a.getLast?, sp c = false) : pyStrip sp (b ++ a ++ b') = a := by
  have drop : ∀ (x y : AStr), (∀ c ∈ x, sp c = true) → (x ++ y).dropWhile sp = y.dropWhile sp := by
    intro x
    induction x with
    | nil => intros; rfl
    | cons c x ih => intro y h; simp [h c (by simp), ih y (fun d hd => h d (by simp [hd]))]
  have stay : ∀ (x y : AStr), x ≠ [] → (∀ c ∈ x.head?, sp c = false) → (x ++ y).dropWhile sp = x ++ y := by
    intro x y hx h
    cases x with
    | nil => exact absurd rfl hx
    | cons c x => simp [h c (by simp)]
  unfold pyStrip
  rw [List.append_assoc, drop _ _ hb]
  rcases eq_or_ne a [] with rfl | ha
  · have : List.dropWhile sp ([] ++ b') = [] := by simpa using drop b' [] hb'
    rw [this]; rfl
  · rw [stay _ _ ha h1, List.reverse_append, drop _ _ (by simpa using hb')]
    have := stay a.reverse [] (by simpa using ha) (by simpa using h2)
    simp only [List.append_nil] at this
    rw [this, List.reverse_reverse]

theorem pyRstrip_clean {x : AStr} (h : ')' ∉ x) : pyRstrip [')'] x = x := by
  rcases List.eq_nil_or_concat x with rfl | ⟨y, c, rfl⟩
  · rfl
  · rw [List.concat_eq_append] at h ⊢
    apply pyRstrip_stop
    intro hc
    simp only [List.mem_singleton] at hc
    subst hc
    simp at h

theorem sepByComma_cons (a b : AStr) (l : List AStr) : sepByComma (a :: b :: l) = a ++ ',' :: sepByComma (b :: l) := by
  simp [sepByComma, List.intersperse]

theorem sepByComma_one (a : AStr) : sepByComma [a] = a := by simp [sepByComma]

theorem joinComma_sep : ∀ l : List AStr, joinComma l = sepByComma l
  | [] => rfl
  | [a] => (sepByComma_one a).symm
  | a :: b :: l => by rw [sepByComma_cons, ← joinComma_sep (b :: l)]; rfl

theorem mem_sepByComma {c : Char} : ∀ {l : List AStr}, c ∈ sepByComma l → c = ',' ∨ ∃ a ∈ l, c ∈ a
  | [], h => by simp [sepByComma] at h
  | [a], h => by rw [sepByComma_one] at h; exact .inr ⟨a, by simp, h⟩
  | a :: b :: l, h => by
    rw [sepByComma_cons, List.mem_append, List.mem_cons] at h
    rcases h with h | h | h
    · exact .inr ⟨a, by simp, h⟩
    · exact .inl h
    · rcases mem_sepByComma h with h | ⟨x, hx, hc⟩
      · exact .inl h
      · exact .inr ⟨x, by simp only [List.mem_cons] at hx ⊢; tauto, hc⟩

theorem pySplit_sep : ∀ {l : List AStr}, l ≠ [] → (∀ a ∈ l, ',' ∉ a) → pySplit ',' (sepByComma l) = l
  | [], h, _ => absurd rfl h
  | [a], _, h => by rw [sepByComma_one]; exact pySplit_none (h a (by simp))
  | a :: b :: l, _, h => by
    rw [sepByComma_cons, pySplit_cut _ (h a (by simp)), pySplit_sep (by simp) (fun x hx => h x (by simp only [List.mem_cons] at hx ⊢; tauto))]

theorem padded_chars {sp : Char → Bool} (hs : SpaceOK sp) {a : String} {t : AStr} (ha : TextName sp a) (h : Padded sp a t) : '(' ∉ t ∧ ')' ∉ t ∧ ',' ∉ t := by
  obtain ⟨b, b', hb, hb', rfl⟩ := h
  obtain ⟨h1, h2, h3, _⟩ := ha
  obtain ⟨s1, s2, s3⟩ := hs
  simp only [List.mem_append, not_or]
  refine ⟨⟨⟨fun h => ?_, h1⟩, fun h => ?_⟩, ⟨⟨fun h => ?_, h2⟩, fun h => ?_⟩, ⟨⟨fun h => ?_, h3⟩, fun h => ?_⟩⟩
  · rw [hb _ h] at s1; cases s1
  · rw [hb' _ h] at s1; cases s1
  · rw [hb _ h] at s2; cases s2
  · rw [hb' _ h] at s2; cases s2
  · rw [hb _ h] at s3; cases s3
  · rw [hb' _ h] at s3; cases s3

theorem padded_strip {sp : Char → Bool} {a : String} {t : AStr} (ha : TextName sp a) (h : Padded sp a t) : pyStrip sp t = a.toList := by
  obtain ⟨b, b', hb, hb', rfl⟩ := h
  exact pyStrip_pad hb hb' ha.2.2.2.1 ha.2.2.2.2

theorem map_strip {sp : Char → Bool} {cs : List String} {cs' : List AStr} (hc : ∀ c ∈ cs, TextName sp c) (h : List.Forall₂ (Padded sp) cs cs') :
    cs'.map (pyStrip sp) = cs.map String.toList := by
  induction h with
  | nil => rfl
  | cons h _ ih => simp [padded_strip (hc _ (by simp)) h, ih (fun c hm => hc c (by simp [hm]))]

theorem padded_all {sp : Char → Bool} (hs : SpaceOK sp) {cs : List String} {cs' : List AStr} (hc : ∀ c ∈ cs, TextName sp c) (h : List.Forall₂ (Padded sp) cs cs') :
    ∀ x ∈ cs', '(' ∉ x ∧ ')' ∉ x ∧ ',' ∉ x := by
  induction h with
  | nil => simp
  | cons h _ ih =>
    intro x hx
    rcases List.mem_cons.mp hx with rfl | hx
    · exact padded_chars hs (hc _ (by simp)) h
    · exact ih (fun c hm => hc c (by simp [hm])) x hx

theorem map_noparen {x : AStr} (h : '(' ∉ x) : (x.map fun c => if c = '(' then ',' else c) = x := by
  induction x with
  | nil => rfl
  | cons c x ih =>
    simp only [List.mem_cons, not_or] at h
    simp [Ne.symm h.1, ih h.2]

theorem parts_sep {sp : Char → Bool} {l : List AStr} (hne : l ≠ []) (h : ∀ x ∈ l, '(' ∉ x ∧ ')' ∉ x ∧ ',' ∉ x) :
    atomParts sp (sepByComma l) = l.map (pyStrip sp) := by
  have h1 : '(' ∉ sepByComma l := by
    intro hc
    rcases mem_sepByComma hc with hc | ⟨a, ha, hc⟩
    · cases hc
    · exact (h a ha).1 hc
  have h2 : ')' ∉ sepByComma l := by
    intro hc
    rcases mem_sepByComma hc with hc | ⟨a, ha, hc⟩
    · cases hc
    · exact (h a ha).2.1 hc
  unfold atomParts
  rw [pyRstrip_clean h2, map_noparen h1, pySplit_sep hne (fun a ha => (h a ha).2.2)]

theorem parts_written {sp : Char → Bool} {p' : AStr} {l : List AStr} (hne : l ≠ []) (hp : '(' ∉ p' ∧ ')' ∉ p' ∧ ',' ∉ p') (h : ∀ x ∈ l, '(' ∉ x ∧ ')' ∉ x ∧ ',' ∉ x) :
    atomParts sp (p' ++ ['('] ++ sepByComma l ++ [')']) = (p' :: l).map (pyStrip sp) := by
  obtain ⟨a, l, rfl⟩ : ∃ a l', l = a :: l' := by cases l with | nil => exact absurd rfl hne | cons a l => exact ⟨a, l, rfl⟩
  have h1 : '(' ∉ sepByComma (a :: l) := by
    intro hc
    rcases mem_sepByComma hc with hc | ⟨a, ha, hc⟩
    · cases hc
    · exact (h a ha).1 hc
  have h2 : ')' ∉ p' ++ ['('] ++ sepByComma (a :: l) := by
    intro hc
    simp only [List.mem_append, List.mem_singleton] at hc
    rcases hc with (hc | hc) | hc
    · exact hp.2.1 hc
    · cases hc
    · rcases mem_sepByComma hc with hc | ⟨a, ha, hc⟩
      · cases hc
      · exact (h a ha).2.1 hc
  unfold atomParts
  rw [pyRstrip_snoc _ (by simp), pyRstrip_clean h2, List.map_append, List.map_append, map_noparen hp.1, map_noparen h1]
  simp only [List.map_cons, List.map_nil, if_true]
  rw [List.append_assoc, List.singleton_append, pySplit_cut _ hp.2.2, pySplit_sep (by simp) (fun a ha => (h a ha).2.2)]
  rfl

/-! ### Atoms -/

theorem getElems_const {L : Lang} {cs : List String} {pt : List Const} (h : List.Forall₂ (fun c (k : Const) => ∃ t, L.index c = some (.const c t) ∧ k = ⟨.str c, t⟩) cs pt) :
    ∃ os, getElems L cs = .ok os ∧ List.Forall₂ (fun o (k : Const) => ∃ c t, o = LObj.const c t ∧ k = ⟨.str c, t⟩) os pt := by
  induction h with
  | nil => exact ⟨[], rfl, .nil⟩
  | @cons c k cs pt h _ ih =>
    obtain ⟨t, h1, rfl⟩ := h
    obtain ⟨os, h2, h3⟩ := ih
    exact ⟨.const c t :: os, by simp [getElems, getElem1, h1, h2], .cons ⟨c, t, rfl, rfl⟩ h3⟩

theorem callAtomArgs_ok {sub : String → String → Bool} {os : List LObj} {pt : List Const} (h : List.Forall₂ (fun o (k : Const) => ∃ c t, o = LObj.const c t ∧ k = ⟨.str c, t⟩) os pt) :
    ∀ {ss : List String}, List.Forall₂ (fun (k : Const) s => sub k.sort s = true) pt ss → callAtomArgs sub os ss = .ok pt := by
  induction h with
  | nil => intro ss h; cases h; rfl
  | cons h _ ih =>
    intro ss h'
    obtain ⟨c, t, rfl, rfl⟩ := h
    cases h' with
    | cons h1 h2 => simp only at h1; simp [callAtomArgs, h1, ih h2]

theorem parse_of_parts {sp : Char → Bool} {n : Nat} {L : Lang} {p : String} {cs : List String} {pt : List Const} {t : AStr} (h : IsAtom L n p cs pt)
    (ht : atomParts sp t = (p :: cs).map String.toList) : parseAtom sp n L t = .ok (.atom p pt) := by
  obtain ⟨ss, h1, h2, h3⟩ := h
  obtain ⟨os, h4, h5⟩ := getElems_const h2
  have hl : os.length = ss.length := by rw [h5.length_eq, h3.length_eq]
  have : (atomParts sp t).map String.ofList = p :: cs := by
    rw [ht, List.map_map]
    simp [Function.comp_def]
  unfold parseAtom
  rw [this]
  simp [getElem1, h1, h4, callElem, hl, callAtomArgs_ok h5 h3]

/-- `parse_atom` reads every way to write an atom with arguments. -/
theorem C100_read_partial {sp : Char → Bool} (hs : SpaceOK sp) {n : Nat} {L : Lang} {p : String} {cs : List String} {pt : List Const} {t : AStr} (h : IsAtom L n p cs pt)
    (hp : TextName sp p) (hc : ∀ c ∈ cs, TextName sp c) (ht : AtomWritten sp p cs t) : parseAtom sp n L t = .ok (.atom p pt) := by
  obtain ⟨hne, p', cs', h1, h2, rfl⟩ := ht
  apply parse_of_parts h
  have hne' : cs' ≠ [] := by
    intro he
    rw [he] at h2
    cases h2
    exact hne rfl
  rw [parts_written hne' (padded_chars hs hp h1) (padded_all hs hc h2), List.map_cons, List.map_cons, padded_strip hp h1, map_strip hc h2]

/-- What `str` makes of an atom with arguments is read back. -/
theorem C100_text_partial {sp : Char → Bool} (hs : SpaceOK sp) {n : Nat} {L : Lang} {p : String} {cs : List String} {pt : List Const} (h : IsAtom L n p cs pt)
    (hp : TextName sp p) (hc : ∀ c ∈ cs, TextName sp c) (hne : cs ≠ []) : parseAtom sp n L (atomString p.toList (cs.map String.toList)) = .ok (.atom p pt) := by
  have pad : ∀ a, Padded sp a a.toList := fun a => ⟨[], [], by simp, by simp, by simp⟩
  refine C100_read_partial hs h hp hc ⟨hne, p.toList, cs.map String.toList, pad p, ?_, by simp [atomString, joinComma_sep]⟩
  rw [List.forall₂_map_right_iff, List.forall₂_same]
  exact fun a _ => pad a

/-- What `serialize_atom` makes of any atom is read back. -/
theorem C100_serialized {sp : Char → Bool} {n : Nat} {L : Lang} {p : String} {cs : List String} {pt : List Const} (h : IsAtom L n p cs pt)
    (hp : TextName sp p) (hc : ∀ c ∈ cs, TextName sp c) : parseAtom sp n L (serializeAtom p.toList (cs.map String.toList)) = .ok (.atom p pt) := by
  apply parse_of_parts h
  have e : serializeAtom p.toList (cs.map String.toList) = sepByComma ((p :: cs).map String.toList) := by
    cases cs with
    | nil => simp [serializeAtom, sepByComma_one]
    | cons c cs => simp only [serializeAtom, List.map_cons, joinComma_sep, sepByComma_cons]; rfl
  have hall : ∀ c ∈ p :: cs, TextName sp c := by simpa using ⟨hp, hc⟩
  rw [e, parts_sep (by simp)]
  · rw [List.map_map]
    apply List.map_congr_left
    intro c hm
    exact padded_strip (hall c hm) ⟨[], [], by simp, by simp, by simp⟩
  · intro x hx
    obtain ⟨c, hm, rfl⟩ := List.mem_map.mp hx
    exact ⟨(hall c hm).1, (hall c hm).2.1, (hall c hm).2.2.1⟩

/-- `serialize_atom` tells atoms apart. -/
theorem C100_serialize_inj {sp : Char → Bool} {p q : String} {cs ds : List String} (hp : TextName sp p) (hc : ∀ c ∈ cs, TextName sp c) (hq : TextName sp q)
    (hd : ∀ c ∈ ds, TextName sp c) (h : serializeAtom p.toList (cs.map String.toList) = serializeAtom q.toList (ds.map String.toList)) : p = q ∧ cs = ds := by
  have e : ∀ (p : String) (cs : List String), serializeAtom p.toList (cs.map String.toList) = sepByComma ((p :: cs).map String.toList) := by
    intro p cs
    cases cs with
    | nil => simp [serializeAtom, sepByComma_one]
    | cons c cs => simp only [serializeAtom, List.map_cons, joinComma_sep, sepByComma_cons]; rfl
  rw [e, e] at h
  have h2 := congrArg (pySplit ',') h
  rw [pySplit_sep (by simp), pySplit_sep (by simp)] at h2
  · have := List.map_injective_iff.mpr (fun a b h => String.toList_injective h) h2
    simpa using this
  · intro x hx
    obtain ⟨c, hm, rfl⟩ := List.mem_map.mp hx
    rcases List.mem_cons.mp hm with rfl | hm
    · exact hq.2.2.1
    · exact (hd c hm).2.2.1
  · intro x hx
    obtain ⟨c, hm, rfl⟩ := List.mem_map.mp hx
    rcases List.mem_cons.mp hm with rfl | hm
    · exact hp.2.2.1
    · exact (hc c hm).2.2.1

theorem getElems_spec {L : Lang} : ∀ {cs : List String} {os : List LObj}, getElems L cs = .ok os → List.Forall₂ (fun c o => L.index c = some o) cs os := by
  intro cs
  induction cs with
  | nil => intro os h; simp only [getElems] at h; cases h; exact .nil
  | cons c cs ih =>
    intro os h
    unfold getElems getElem1 at h
    split at h
    · cases h
    · rename_i o ho
      split at h
      · cases h
      · rename_i os' hos
        cases h
        refine .cons ?_ (ih hos)
        split at ho
        · rename_i o' ho'; cases ho; exact ho'
        · cases ho

theorem callAtomArgs_spec {L : Lang} (hi : NameInv L) {sub : String → String → Bool} : ∀ {cs : List String} {os : List LObj} {ss : List String} {pt : List Const}, os.length = ss.length →
    List.Forall₂ (fun c o => L.index c = some o) cs os → callAtomArgs sub os ss = .ok pt →
    List.Forall₂ (fun c (k : Const) => ∃ t, L.index c = some (.const c t) ∧ k = ⟨.str c, t⟩) cs pt ∧ List.Forall₂ (fun (k : Const) s => sub k.sort s = true) pt ss := by
  intro cs os ss pt hl h
  induction h generalizing ss pt with
  | nil =>
    intro h
    cases ss with
    | nil => simp only [callAtomArgs] at h; cases h; exact ⟨.nil, .nil⟩
    | cons s ss => simp at hl
  | @cons c o cs os h _ ih =>
    intro ha
    cases ss with
    | nil => simp at hl
    | cons s ss =>
      cases o with
      | const d t =>
        simp only [callAtomArgs] at ha
        split at ha
        · rename_i hsub
          split at ha
          · cases ha
          · rename_i ks hks
            cases ha
            obtain ⟨h1, h2⟩ := ih (by simpa using hl) hks
            have hd : d = c := by
              rcases hi.name _ _ h with h' | ⟨_, h'⟩ | ⟨_, h'⟩ | ⟨_, h'⟩
              · cases h'
              · cases h'
              · cases h'
              · cases h'; rfl
            subst hd
            exact ⟨.cons ⟨t, h, rfl⟩ h1, .cons hsub h2⟩
        · cases ha
      | sort _ => simp [callAtomArgs] at ha
      | pred _ _ => simp [callAtomArgs] at ha
      | func _ _ => simp [callAtomArgs] at ha

/-- Whatever text is accepted, an atom that is returned is one of the language. -/
theorem C100_sound {sp : Char → Bool} {n : Nat} {L : Lang} (hi : NameInv L) {t : AStr} {p : String} {pt : List Const} (h : parseAtom sp n L t = .ok (.atom p pt)) :
    ∃ cs, IsAtom L n p cs pt := by
  unfold parseAtom at h
  split at h
  · cases h
  · rename_i a args _
    split at h
    · cases h
    · rename_i o ho
      split at h
      · cases h
      · rename_i os hos
        have ho' : L.index a = some o := by
          unfold getElem1 at ho
          split at ho
          · rename_i o' ho'; cases ho; exact ho'
          · cases ho
        cases o with
        | pred q ss =>
          simp only [callElem] at h
          split at h
          · cases h
          · rename_i hl
            split at h
            · cases h
            · rename_i ks hks
              cases h
              have hq : a = p := by
                rcases hi.name _ _ ho' with h' | ⟨_, h'⟩ | ⟨_, h'⟩ | ⟨_, h'⟩
                · cases h'
                · cases h'; rfl
                · cases h'
                · cases h'
              subst hq
              obtain ⟨h1, h2⟩ := callAtomArgs_spec hi (by simpa using hl) (getElems_spec hos) hks
              exact ⟨args, ss, ho', h1, h2⟩
        | func f ss =>
          simp only [callElem] at h
          split at h
          · cases h
          · split at h <;> cases h
        | sort _ => simp [callElem] at h
        | const _ _ => simp [callElem] at h

/-- A term of the language: a function with constants of subsorts of its argument sorts. -/
def IsFnTerm (L : Lang) (n : Nat) (f : String) (cs : List String) (pt : List Const) : Prop :=
  ∃ sorts cod, L.index f = some (.func f (sorts ++ [cod])) ∧
    List.Forall₂ (fun c (k : Const) => ∃ t, L.index c = some (.const c t) ∧ k = ⟨.str c, t⟩) cs pt ∧
    List.Forall₂ (fun (k : Const) s => (decide (k.sort = s) || L.subB n k.sort s) = true) pt sorts

theorem callTermArgs_iff (sub : String → String → Bool) : ∀ (os : List LObj) (ss : List String) (pt : List Const),
    callTermArgs sub os ss = .ok pt ↔ callAtomArgs (fun t s => decide (t = s) || sub t s) os ss = .ok pt := by
  intro os
  induction os with
  | nil => intro ss pt; simp [callTermArgs, callAtomArgs]
  | cons o os ih =>
    intro ss pt
    cases ss with
    | nil => cases o <;> simp [callTermArgs, callAtomArgs]
    | cons s ss =>
      cases o with
      | const c t =>
        simp only [callTermArgs, callAtomArgs]
        split
        · cases h1 : callTermArgs sub os ss with
          | ok cs => rw [(ih ss cs).mp h1]
          | error e =>
            cases h2 : callAtomArgs (fun t s => decide (t = s) || sub t s) os ss with
            | ok cs => rw [(ih ss cs).mpr h2] at h1; cases h1
            | error e' => exact ⟨by nofun, by nofun⟩
        · exact ⟨by nofun, by nofun⟩
      | sort _ => exact ⟨by nofun, by nofun⟩
      | pred _ _ => exact ⟨by nofun, by nofun⟩
      | func _ _ => exact ⟨by nofun, by nofun⟩

/-- With a function in the place of a predicate, `parse_atom` reads every way to write a term of the language. -/
theorem C100_term_read {sp : Char → Bool} (hs : SpaceOK sp) {n : Nat} {L : Lang} {f : String} {cs : List String} {pt : List Const} {t : AStr} (h : IsFnTerm L n f cs pt)
    (hp : TextName sp f) (hc : ∀ c ∈ cs, TextName sp c) (ht : AtomWritten sp f cs t) : parseAtom sp n L t = .ok (.term f pt) := by
  obtain ⟨hne, p', cs', h1, h2, rfl⟩ := ht
  have hne' : cs' ≠ [] := by
    intro he
    rw [he] at h2
    cases h2
    exact hne rfl
  have ht : atomParts sp (p' ++ ['('] ++ sepByComma cs' ++ [')']) = (f :: cs).map String.toList := by
    rw [parts_written hne' (padded_chars hs hp h1) (padded_all hs hc h2), List.map_cons, List.map_cons, padded_strip hp h1, map_strip hc h2]
  obtain ⟨ss, cod, h3, h4, h5⟩ := h
  obtain ⟨os, h6, h7⟩ := getElems_const h4
  have hl : os.length = ss.length := by rw [h7.length_eq, h5.length_eq]
  have h8 := (callTermArgs_iff (L.subB n) os ss pt).mpr (callAtomArgs_ok (sub := fun t s => decide (t = s) || L.subB n t s) h7 h5)
  have : (atomParts sp (p' ++ ['('] ++ sepByComma cs' ++ [')'])).map String.ofList = f :: cs := by
    rw [ht, List.map_map]
    simp [Function.comp_def]
  unfold parseAtom
  rw [this]
  simp [getElem1, h3, h6, callElem, hl, h8]

/-- A term that is returned is one of the language. -/
theorem C100_term_sound {sp : Char → Bool} {n : Nat} {L : Lang} (hi : NameInv L) (hf : ∀ f ss, L.index f = some (.func f ss) → ss ≠ []) {t : AStr} {f : String}
    {pt : List Const} (h : parseAtom sp n L t = .ok (.term f pt)) : ∃ cs, IsFnTerm L n f cs pt := by
  unfold parseAtom at h
  split at h
  · cases h
  · rename_i a args _
    split at h
    · cases h
    · rename_i o ho
      split at h
      · cases h
      · rename_i os hos
        have ho' : L.index a = some o := by
          unfold getElem1 at ho
          split at ho
          · rename_i o' ho'; cases ho; exact ho'
          · cases ho
        cases o with
        | func g ss =>
          simp only [callElem] at h
          split at h
          · cases h
          · rename_i hl
            split at h
            · cases h
            · rename_i ks hks
              cases h
              have hq : a = f := by
                rcases hi.name _ _ ho' with h' | ⟨_, h'⟩ | ⟨_, h'⟩ | ⟨_, h'⟩
                · cases h'
                · cases h'
                · cases h'; rfl
                · cases h'
              subst hq
              obtain ⟨h1, h2⟩ := callAtomArgs_spec hi (by simpa using hl) (getElems_spec hos) ((callTermArgs_iff _ _ _ _).mp hks)
              have hne := hf a ss ho'
              exact ⟨args, ss.dropLast, ss.getLast hne, by rw [List.dropLast_append_getLast hne]; exact ho', h1, h2⟩
        | pred p ss =>
          simp only [callElem] at h
          split at h
          · cases h
          · split at h <;> cases h
        | sort _ => simp [callElem] at h
        | const _ _ => simp [callElem] at h

theorem add_atom {n : Nat} {L : Lang} (hi : NameInv L) (enc : String → Name → Bool) {p : String} {cs : List String} {pt : List Const} (h : IsAtom L n p cs pt) (m : MState) :
    ∃ m', m.add (L.forModel n enc) (.user p) (pt.map .const) = (m', none) ∧ m'.fns = m.fns ∧
      ∀ q qt, m'.holds (L.forModel n enc) q qt = true ↔ (q = p ∧ qt = pt) ∨ m.holds (L.forModel n enc) q qt = true := by
  obtain ⟨ss, h1, h2, h3⟩ := h
  have hps : (L.forModel n enc).psorts p = ss := by simp [Lang.forModel, (hi.pred p ss).mpr h1]
  have hce : ∀ (pt : List Const) (ss : List String), List.Forall₂ (fun (k : Const) s => L.subB n k.sort s = true) pt ss → checkElements (L.forModel n enc) (pt.map .const) ss = .ok pt := by
    intro pt ss h
    induction h with
    | nil => rfl
    | cons h _ ih =>
      have : (L.forModel n enc).isSub = L.subB n := rfl
      simp [checkElements, checkElement, this, h, ih]
  have hca : checkAssignment (L.forModel n enc) ((L.forModel n enc).psorts p) (pt.map .const) = .ok pt := by
    unfold checkAssignment
    rw [hps, if_neg (by simp [h3.length_eq]), hce _ _ h3]
  refine ⟨{ m with preds := dinsert m.preds ((L.forModel n enc).psig p) (ptAdd ((dlookup m.preds ((L.forModel n enc).psig p)).getD []) pt) }, by simp only [MState.add, hca], rfl, ?_⟩
  intro q qt
  simp only [holds_iff, dlookup_dinsert]
  by_cases hq : q = p
  · subst hq
    simp only [if_true, Option.some.injEq, exists_eq_left', mem_ptAdd]
    cases hd : dlookup m.preds ((L.forModel n enc).psig q) <;> simp
  · have : (L.forModel n enc).psig q ≠ (L.forModel n enc).psig p := fun h => hq (psig_inj.mp h)
    simp [hq, this, Ne.symm this]

/-- `parse_model` accepts a list of texts exactly when each is read as an atom, and then the atoms read are those that hold. -/
theorem C100_model {sp : Char → Bool} {n : Nat} {L : Lang} (hi : NameInv L) (enc : String → Name → Bool) (ts : List AStr) :
    (∀ m, parseModelText sp n enc L ts = .ok m → ∃ atoms : List (String × List Const), List.Forall₂ (fun t a => parseAtom sp n L t = .ok (.atom a.1 a.2)) ts atoms ∧
      m.fns = [] ∧ ∀ p pt, m.holds (L.forModel n enc) p pt = true ↔ (p, pt) ∈ atoms) ∧
    ((∀ t ∈ ts, ∃ p pt, parseAtom sp n L t = .ok (.atom p pt)) → ∃ m, parseModelText sp n enc L ts = .ok m) := by
  have key : ∀ (ts : List AStr) (m0 : MState),
      (∀ m, parseAtoms sp n enc L m0 ts = (m, none) → ∃ atoms : List (String × List Const), List.Forall₂ (fun t a => parseAtom sp n L t = .ok (.atom a.1 a.2)) ts atoms ∧
        m.fns = m0.fns ∧ ∀ p pt, m.holds (L.forModel n enc) p pt = true ↔ (p, pt) ∈ atoms ∨ m0.holds (L.forModel n enc) p pt = true) ∧
      ((∀ t ∈ ts, ∃ p pt, parseAtom sp n L t = .ok (.atom p pt)) → ∃ m, parseAtoms sp n enc L m0 ts = (m, none)) := by
    intro ts
    induction ts with
    | nil =>
      intro m0
      refine ⟨?_, fun _ => ⟨m0, rfl⟩⟩
      intro m h
      simp only [parseAtoms] at h
      cases h
      exact ⟨[], .nil, rfl, by simp⟩
    | cons t ts ih =>
      intro m0
      constructor
      · intro m h
        unfold parseAtoms at h
        split at h
        · cases h
        · cases h
        · rename_i p pt hp
          obtain ⟨cs, ha⟩ := C100_sound hi hp
          obtain ⟨m', h1, h2, h3⟩ := add_atom hi enc ha m0
          rw [h1] at h
          obtain ⟨atoms, h4, h5, h6⟩ := (ih m').1 m h
          refine ⟨(p, pt) :: atoms, .cons hp h4, by rw [h5, h2], ?_⟩
          intro q qt
          rw [h6, h3, List.mem_cons, Prod.mk.injEq]
          tauto
      · intro hall
        obtain ⟨p, pt, hp⟩ := hall t (by simp)
        obtain ⟨cs, ha⟩ := C100_sound hi hp
        obtain ⟨m', h1, h2, h3⟩ := add_atom hi enc ha m0
        obtain ⟨m, hm⟩ := (ih m').2 (fun x hx => hall x (by simp [hx]))
        exact ⟨m, by simp [parseAtoms, hp, h1, hm]⟩
  obtain ⟨k1, k2⟩ := key ts MState.empty
  constructor
  · intro m h
    unfold parseModelText at h
    split at h
    · rename_i m' hm
      cases h
      obtain ⟨atoms, h1, h2, h3⟩ := k1 _ hm
      exact ⟨atoms, h1, h2, fun p pt => by rw [h3]; simp [MState.holds, MState.empty, dlookup]⟩
    · cases h
  · intro h
    obtain ⟨m, hm⟩ := k2 h
    exact ⟨m, by simp [parseModelText, hm]⟩

/-! ### Where the full claim fails -/

/-- The text of every atom should be read back. -/
def C100_text_full : Prop := ∀ (sp : Char → Bool), SpaceOK sp → ∀ (n : Nat) (L : Lang), NameInv L → ∀ p cs pt, IsAtom L n p cs pt → TextName sp p →
  (∀ c ∈ cs, TextName sp c) → parseAtom sp n L (atomString p.toList (cs.map String.toList)) = .ok (.atom p pt)

theorem parts_nullary {sp : Char → Bool} {p : String} (hp : TextName sp p) : atomParts sp (atomString p.toList []) = [p.toList, []] := by
  have h : atomString p.toList [] = p.toList ++ ['('] ++ sepByComma [[]] ++ [')'] := by simp [atomString, joinComma, sepByComma_one]
  rw [h, parts_written (by simp) ⟨hp.1, hp.2.1, hp.2.2.1⟩ (by simp)]
  have h1 : pyStrip sp p.toList = p.toList := padded_strip hp ⟨[], [], by simp, by simp, by simp⟩
  simp only [List.map_cons, List.map_nil, h1]
  rfl

/-- The text `p()` of an atom without arguments is never read (unless a symbol has the empty name): `parse_atom` looks for an argument
with the empty name. -/
theorem C100_nullary_refuted {sp : Char → Bool} {n : Nat} {L : Lang} {p : String} {ss : List String} (h : L.index p = some (.pred p ss)) (hp : TextName sp p) (he : L.index "" = none) :
    parseAtom sp n L (atomString p.toList []) = .error .undefinedTerm := by
  unfold parseAtom
  rw [parts_nullary hp]
  have e : String.ofList [] = "" := rfl
  simp [getElem1, getElems, h, e, he]

/-- A language with a nullary predicate `handempty`, a predicate `on` over objects, and an object `a`. -/
def blocksLang : Lang :=
  let L1 := { Lang.init with preds := upd Lang.init.preds "handempty" (some []), index := upd Lang.init.index "handempty" (some (.pred "handempty" [])) }
  let L2 := { L1 with preds := upd L1.preds "on" (some ["object", "object"]), index := upd L1.index "on" (some (.pred "on" ["object", "object"])) }
  { L2 with consts := upd L2.consts "a" (some "object"), index := upd L2.index "a" (some (.const "a" "object")) }

theorem blocksLang_names : NameInv blocksLang :=
  nameInv_addConst (nameInv_addPred (nameInv_addPred nameInv_init (name := "handempty") (by rfl) []) (name := "on") (by rfl) _) (name := "a") (by rfl) _

theorem C100_text_refuted : ¬ C100_text_full := by
  intro h
  have h1 := h (fun c => c == ' ') ⟨rfl, rfl, rfl⟩ 1 blocksLang blocksLang_names "handempty" [] [] ⟨[], rfl, .nil, .nil⟩ ⟨by decide, by decide, by decide, by decide, by decide⟩ (by simp)
  rw [List.map_nil, C100_nullary_refuted (ss := []) (by rfl) ⟨by decide, by decide, by decide, by decide, by decide⟩ (by rfl)] at h1
  cases h1

/-- White space (such as the end of a line) after the closing parenthesis makes the last argument unreadable. -/
theorem C100_newline_refuted {sp : Char → Bool} (hs : SpaceOK sp) {n : Nat} {L : Lang} {p : String} {cs : List String} {t : AStr} (hp : TextName sp p) (hc : ∀ c ∈ cs, TextName sp c)
    (ht : AtomWritten sp p cs t) (b : Char) (hb : sp b = true) (hdecl : ∀ a o, L.index a = some o → ')' ∉ a.toList) : ∀ r, parseAtom sp n L (t ++ [b]) ≠ .ok r := by
  obtain ⟨hne, p', cs', h1, h2, rfl⟩ := ht
  obtain ⟨cs0, c, rfl⟩ := List.eq_nil_or_concat cs |>.resolve_left hne
  rw [List.concat_eq_append] at h2 hc
  have hb1 : b ≠ ')' := fun e => by rw [e, hs.2.1] at hb; cases hb
  have hb2 : b ≠ '(' := fun e => by rw [e, hs.1] at hb; cases hb
  have hb3 : b ≠ ',' := fun e => by rw [e, hs.2.2] at hb; cases hb
  obtain ⟨l0, l1, h3, h4, rfl⟩ : ∃ l0 l1, List.Forall₂ (Padded sp) cs0 l0 ∧ List.Forall₂ (Padded sp) [c] l1 ∧ cs' = l0 ++ l1 := by
    refine ⟨cs'.take cs0.length, cs'.drop cs0.length, ?_, ?_, (List.take_append_drop _ _).symm⟩
    · have := List.forall₂_take cs0.length h2; simpa using this
    · have := List.forall₂_drop cs0.length h2; simpa using this
  obtain ⟨x, hx, rfl⟩ : ∃ x, Padded sp c x ∧ l1 = [x] := by cases h4 with | cons h h' => cases h'; exact ⟨_, h, rfl⟩
  have hcx := padded_chars hs (hc c (by simp)) hx
  have hp' := padded_chars hs hp h1
  have h0 := padded_all hs (fun d hd => hc d (by simp [hd])) h3
  have lastSep : ∀ (l : List AStr) (y z : AStr), sepByComma (l ++ [y]) ++ z = sepByComma (l ++ [y ++ z]) := by
    intro l
    induction l with
    | nil => intro y z; simp [sepByComma_one]
    | cons w l ih =>
      intro y z
      cases l with
      | nil => simp [sepByComma_cons, sepByComma_one]
      | cons v l => simpa [sepByComma_cons] using ih y z
  have e : p' ++ ['('] ++ sepByComma (l0 ++ [x]) ++ [')'] ++ [b] = p' ++ ['('] ++ sepByComma (l0 ++ [x ++ [')', b]]) := by
    rw [← lastSep]; simp
  have hparts : atomParts sp (p' ++ ['('] ++ sepByComma (l0 ++ [x]) ++ [')'] ++ [b]) = (p' :: (l0 ++ [x ++ [')', b]])).map (pyStrip sp) := by
    have hrs : pyRstrip [')'] (p' ++ ['('] ++ sepByComma (l0 ++ [x]) ++ [')'] ++ [b]) = p' ++ ['('] ++ sepByComma (l0 ++ [x]) ++ [')'] ++ [b] := pyRstrip_stop _ (by simpa using hb1)
    have hall : ∀ y ∈ l0 ++ [x ++ [')', b]], '(' ∉ y ∧ ',' ∉ y := by
      intro y hy
      rcases List.mem_append.mp hy with hy | hy
      · exact ⟨(h0 y hy).1, (h0 y hy).2.2⟩
      · rw [List.mem_singleton] at hy
        subst hy
        simp [hcx.1, hcx.2.2, Ne.symm hb2, Ne.symm hb3]
    have h5 : '(' ∉ sepByComma (l0 ++ [x ++ [')', b]]) := by
      intro hm
      rcases mem_sepByComma hm with hm | ⟨a, ha, hm⟩
      · cases hm
      · exact (hall a ha).1 hm
    unfold atomParts
    rw [hrs, e, List.map_append, List.map_append, map_noparen hp'.1, map_noparen h5]
    simp only [List.map_cons, List.map_nil, if_true]
    rw [List.append_assoc, List.singleton_append, pySplit_cut _ hp'.2.2, pySplit_sep (by simp) (fun a ha => (hall a ha).2)]
    rfl
  have hmem : ∀ (y : AStr), ')' ∈ y → ')' ∈ pyStrip sp y := by
    have keep : ∀ (z : AStr), ')' ∈ z → ')' ∈ z.dropWhile sp := by
      intro z
      induction z with
      | nil => simp
      | cons w z ih =>
        intro hm
        rw [List.dropWhile_cons]
        split
        · rename_i hw
          rcases List.mem_cons.mp hm with rfl | hm
          · rw [hs.2.1] at hw; cases hw
          · exact ih hm
        · exact hm
    intro y hy
    unfold pyStrip
    rw [List.mem_reverse]
    exact keep _ (List.mem_reverse.mpr (keep _ hy))
  intro r hr
  unfold parseAtom at hr
  rw [hparts] at hr
  simp only [List.map_cons] at hr
  split at hr
  · cases hr
  · split at hr
    · cases hr
    · rename_i os hos
      have hall := getElems_spec hos
      have hin : String.ofList (pyStrip sp (x ++ [')', b])) ∈ List.map String.ofList (List.map (pyStrip sp) (l0 ++ [x ++ [')', b]])) := by simp
      obtain ⟨o, ho⟩ : ∃ o, L.index (String.ofList (pyStrip sp (x ++ [')', b]))) = some o := by
        generalize List.map String.ofList (List.map (pyStrip sp) (l0 ++ [x ++ [')', b]])) = names at hall hin
        clear hos hr
        induction hall with
        | nil => cases hin
        | cons h _ ih =>
          rcases List.mem_cons.mp hin with e | hin
          · rw [e]; exact ⟨_, h⟩
          · exact ih hin
      apply hdecl _ _ ho
      rw [String.toList_ofList]
      exact hmem _ (by simp)

/-! ### Examples -/

/-- With a function `loc` from objects to objects, `loc(a)` is a term. -/
example : IsFnTerm { blocksLang with index := upd blocksLang.index "loc" (some (.func "loc" ["object", "object"])) } 1 "loc" ["a"] [⟨.str "a", "object"⟩] :=
  ⟨["object"], "object", rfl, .cons ⟨"object", rfl, rfl⟩ .nil, .cons (by simp) .nil⟩

example : parseAtom (fun c => c == ' ') 1 blocksLang " on( a,a )".toList = .ok (.atom "on" [⟨.str "a", "object"⟩, ⟨.str "a", "object"⟩]) :=
  C100_read_partial (cs := ["a", "a"]) ⟨rfl, rfl, rfl⟩ ⟨["object", "object"], rfl, .cons ⟨"object", rfl, rfl⟩ (.cons ⟨"object", rfl, rfl⟩ .nil), .cons (by rfl) (.cons (by rfl) .nil)⟩
    ⟨by decide, by decide, by decide, by decide, by decide⟩ (by simp only [List.mem_cons, List.not_mem_nil, or_false, or_self, forall_eq]; exact ⟨by decide, by decide, by decide, by decide, by decide⟩)
    ⟨by simp, " on".toList, [" a".toList, "a ".toList], ⟨[' '], [], by simp, by simp, by rfl⟩, .cons ⟨[' '], [], by simp, by simp, by rfl⟩ (.cons ⟨[], [' '], by simp, by simp, by rfl⟩ .nil), by rfl⟩

example : ∃ m, parseModelText (fun c => c == ' ') 1 (fun _ _ => true) blocksLang [atomString "on".toList (["a", "a"].map String.toList), serializeAtom "handempty".toList ([].map String.toList)] = .ok m := by
  refine (C100_model blocksLang_names _ _).2 ?_
  intro t ht
  simp only [List.mem_cons, List.not_mem_nil, or_false] at ht
  rcases ht with rfl | rfl
  · exact ⟨"on", [⟨.str "a", "object"⟩, ⟨.str "a", "object"⟩], C100_text_partial (cs := ["a", "a"]) ⟨rfl, rfl, rfl⟩ ⟨["object", "object"], rfl, .cons ⟨"object", rfl, rfl⟩ (.cons ⟨"object", rfl, rfl⟩ .nil), .cons (by rfl) (.cons (by rfl) .nil)⟩
      ⟨by decide, by decide, by decide, by decide, by decide⟩ (by simp only [List.mem_cons, List.not_mem_nil, or_false, or_self, forall_eq]; exact ⟨by decide, by decide, by decide, by decide, by decide⟩) (by simp)⟩
  · exact ⟨"handempty", [], C100_serialized (cs := []) ⟨[], rfl, .nil, .nil⟩ ⟨by decide, by decide, by decide, by decide, by decide⟩ (by simp)⟩

example : ∀ r, parseAtom (fun c => c == ' ' || c == '\n') 1 blocksLang "on(a,a)\n".toList ≠ .ok r :=
  C100_newline_refuted (t := "on(a,a)".toList) (cs := ["a", "a"]) (p := "on") ⟨rfl, rfl, rfl⟩ ⟨by decide, by decide, by decide, by decide, by decide⟩
    (by simp only [List.mem_cons, List.not_mem_nil, or_false, or_self, forall_eq]; exact ⟨by decide, by decide, by decide, by decide, by decide⟩)
    ⟨by simp, "on".toList, ["a".toList, "a".toList], ⟨[], [], by simp, by simp, by rfl⟩, .cons ⟨[], [], by simp, by simp, by rfl⟩ (.cons ⟨[], [], by simp, by simp, by rfl⟩ .nil), by rfl⟩ '\n' (by rfl)
    (by
      intro a o h
      simp only [blocksLang, upd, Lang.init] at h
      split at h
      · rename_i h'; subst h'; decide
      · split at h
        · rename_i h'; subst h'; decide
        · split at h
          · rename_i h'; subst h'; decide
          · split at h
            · rename_i h'; subst h'; decide
            · cases h)

end Tarski

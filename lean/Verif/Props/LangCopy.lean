import Verif.LangCopy
import Mathlib.Tactic.Common
/-! C103: languages side by side, and copies of languages. -/
namespace Tarski

/-- The sort objects an element of a language mentions. -/
def GObj.refs : GObj → List Nat
  | .sort r => [r]
  | .pred _ rs => rs
  | .func _ rs => rs
  | .const _ r => [r]

/-- The sort object `r` is mentioned in the dictionaries of a language. -/
structure LangRec.Mentions (L : LangRec) (r : Nat) : Prop where
  any : (∃ s, L.sorts s = some r) ∨ (∃ p rs, L.preds p = some rs ∧ r ∈ rs) ∨ (∃ p rs, L.funs p = some rs ∧ r ∈ rs) ∨
    (∃ s, L.consts s = some r) ∨ (∃ s g, L.index s = some g ∧ r ∈ g.refs) ∨ (∃ s, L.parent s = some (some r)) ∨
    (∃ s rs, L.anc s = some rs ∧ r ∈ rs)

/-- A set of sort objects that contains what the languages of its members mention. -/
def Closed (w : World) (Q : Nat → Prop) : Prop := ∀ r, Q r → ∀ q, (w.lang (w.obj r).owner).Mentions q → Q q

/-- What a call may change when it runs on language `l`, if it reaches sort objects in `Q` only. -/
structure Frame (Q : Nat → Prop) (l : Nat) (w w' : World) : Prop where
  langs : w'.langs = w.langs
  other : ∀ m, m ≠ l → w'.lang m = w.lang m
  objs : w.objs ≤ w'.objs
  name : ∀ r, r < w.objs → (w'.obj r).name = (w.obj r).name ∧ (w'.obj r).owner = (w.obj r).owner
  fresh : ∀ r, w.objs ≤ r → r < w'.objs → (w'.obj r).owner = l
  dom : ∀ r, r < w.objs → ¬ Q r → (w'.obj r).dom = (w.obj r).dom
  mentions : ∀ r, (w'.lang l).Mentions r → Q r ∨ (w.objs ≤ r ∧ r < w'.objs)
  sorts : ∀ s r, (w.lang l).sorts s = some r → (w'.lang l).sorts s = some r

theorem frame_refl (Q : Nat → Prop) (l : Nat) (w : World) (hm : ∀ r, (w.lang l).Mentions r → Q r) : Frame Q l w w :=
  ⟨rfl, fun _ _ => rfl, Nat.le_refl _, fun _ _ => ⟨rfl, rfl⟩, fun r h1 h2 => absurd h2 (Nat.not_lt.2 h1),
    fun _ _ _ => rfl, fun r h => Or.inl (hm r h), fun _ _ h => h⟩

theorem closure_closed (w : World) (Q : Nat → Prop) (hQ : Closed w Q) : ∀ (n r : Nat) (c : List Nat), Q r →
    w.closure n r = some (.ok c) → ∀ q ∈ c, Q q := by
  intro n
  induction n with
  | zero => intro r c _ h; simp [World.closure] at h
  | succ n ih =>
    intro r c hr h q hq
    simp only [World.closure] at h
    split at h
    · simp at h
    · simp only [Option.some.injEq, Except.ok.injEq] at h
      subst h
      simp only [List.mem_singleton] at hq
      exact hq ▸ hr
    · rename_i p hp
      split at h
      · simp at h
      · simp at h
      · rename_i c' hc
        simp only [Option.some.injEq, Except.ok.injEq] at h
        subst h
        rcases List.mem_cons.1 hq with rfl | hq
        · exact hr
        · exact ih p c' (hQ r hr p ⟨Or.inr (Or.inr (Or.inr (Or.inr (Or.inr (Or.inl ⟨_, hp⟩)))))⟩) hc q hq

theorem addAnc_mem (w : World) : ∀ (l acc : List Nat) (q : Nat), q ∈ w.addAnc acc l → q ∈ acc ∨ q ∈ l := by
  intro l
  induction l with
  | nil => intro acc q h; exact Or.inl h
  | cons r rs ih =>
    intro acc q h
    simp only [World.addAnc, List.foldl_cons] at h
    rcases ih _ q h with h | h
    · split at h
      · exact Or.inl h
      · rcases List.mem_cons.1 h with rfl | h
        · exact Or.inr (List.mem_cons_self ..)
        · exact Or.inl h
    · exact Or.inr (List.mem_cons_of_mem _ h)

/-- What `extend` does to a world. -/
structure DomOnly (Q : Nat → Prop) (w w' : World) : Prop where
  langs : w'.langs = w.langs
  lang : w'.lang = w.lang
  objs : w'.objs = w.objs
  name : ∀ r, (w'.obj r).name = (w.obj r).name ∧ (w'.obj r).owner = (w.obj r).owner
  dom : ∀ r, ¬ Q r → (w'.obj r).dom = (w.obj r).dom

theorem DomOnly.trans {Q : Nat → Prop} {w w' w'' : World} (h : DomOnly Q w w') (h' : DomOnly Q w' w'') : DomOnly Q w w'' :=
  ⟨h'.langs.trans h.langs, h'.lang.trans h.lang, h'.objs.trans h.objs,
    fun r => ⟨(h'.name r).1.trans (h.name r).1, (h'.name r).2.trans (h.name r).2⟩,
    fun r hr => (h'.dom r hr).trans (h.dom r hr)⟩

theorem DomOnly.closed {Q : Nat → Prop} {w w' : World} (h : DomOnly Q w w') (hQ : Closed w Q) : Closed w' Q := by
  intro r hr q hq
  rw [h.lang, (h.name r).2] at hq
  exact hQ r hr q hq

theorem addDom_only (Q : Nat → Prop) (w : World) (r : Nat) (c : String) (hr : Q r) : DomOnly Q w (w.addDom r c) := by
  refine ⟨rfl, rfl, rfl, ?_, ?_⟩
  · intro q
    simp only [World.addDom, upd]
    split
    · rename_i h; subst h; exact ⟨rfl, rfl⟩
    · exact ⟨rfl, rfl⟩
  · intro q hq
    simp only [World.addDom, upd]
    split
    · rename_i h; subst h; exact absurd hr hq
    · rfl

theorem extend_only (Q : Nat → Prop) (c : String) : ∀ (n : Nat) (w : World) (r : Nat) (w' : World) (e : Option Err),
    Closed w Q → Q r → World.extend n w r c = some (w', e) → DomOnly Q w w' := by
  intro n
  induction n with
  | zero => intro w r w' e _ _ h; simp [World.extend] at h
  | succ n ih =>
    intro w r w' e hQ hr h
    simp only [World.extend] at h
    split at h
    · simp only [Option.some.injEq, Prod.mk.injEq] at h
      rw [← h.1]
      exact addDom_only Q w r c hr
    · rename_i l hl
      have hmem : ∀ q ∈ l, Q q := fun q hq =>
        hQ r hr q ⟨Or.inr (Or.inr (Or.inr (Or.inr (Or.inr (Or.inr ⟨_, l, hl, hq⟩)))))⟩
      have hall : ∀ (l : List Nat) (v : World), (∀ q ∈ l, Q q) → Closed v Q →
          extendEach (fun w p => World.extend n w p c) v l = some (w', e) → DomOnly Q v w' := by
        intro l
        induction l with
        | nil =>
          intro v _ _ h
          simp only [extendEach, Option.some.injEq, Prod.mk.injEq] at h
          rw [← h.1]
          exact ⟨rfl, rfl, rfl, fun _ => ⟨rfl, rfl⟩, fun _ _ => rfl⟩
        | cons p ps ihl =>
          intro v hps hv h
          simp only [extendEach] at h
          split at h
          · simp at h
          · rename_i v' e' hv'
            simp only [Option.some.injEq, Prod.mk.injEq] at h
            rw [← h.1]
            exact ih v p v' _ hv (hps p (List.mem_cons_self ..)) hv'
          · rename_i v' hv'
            have h1 := ih v p v' _ hv (hps p (List.mem_cons_self ..)) hv'
            exact h1.trans (ihl v' (fun q hq => hps q (List.mem_cons_of_mem _ hq)) (h1.closed hv) h)
      have h0 := addDom_only Q w r c hr
      exact h0.trans (hall l _ hmem (h0.closed hQ) h)

theorem retrieve_ok (w : World) (l : Nat) (Q : Nat → Prop) (hm : ∀ r, (w.lang l).Mentions r → Q r)
    (ho : ∀ r, r < w.objs → (w.obj r).owner = l → Q r) (a : SArg) (r : Nat) (h : w.retrieve l a = .ok r) : Q r := by
  cases a with
  | name s =>
    simp only [World.retrieve] at h
    split at h
    · simp at h
    · rename_i q hq
      simp only [Except.ok.injEq] at h
      subst h
      exact hm q ⟨Or.inl ⟨s, hq⟩⟩
  | obj q =>
    simp only [World.retrieve] at h
    split at h
    · simp at h
    · rename_i h1
      split at h
      · rename_i h2
        simp only [Except.ok.injEq] at h
        subst h
        exact ho q (Nat.lt_of_not_le h1) h2
      · simp at h

theorem retrieveAll_ok (w : World) (l : Nat) (Q : Nat → Prop) (hm : ∀ r, (w.lang l).Mentions r → Q r)
    (ho : ∀ r, r < w.objs → (w.obj r).owner = l → Q r) : ∀ (as : List SArg) (rs : List Nat),
    w.retrieveAll l as = .ok rs → ∀ r ∈ rs, Q r := by
  intro as
  induction as with
  | nil =>
    intro rs h r hr
    simp only [World.retrieveAll, Except.ok.injEq] at h
    subst h
    simp at hr
  | cons a as ih =>
    intro rs h r hr
    simp only [World.retrieveAll] at h
    split at h
    · simp at h
    · rename_i q hq
      split at h
      · simp at h
      · rename_i qs hqs
        simp only [Except.ok.injEq] at h
        subst h
        rcases List.mem_cons.1 hr with rfl | hr
        · exact retrieve_ok w l Q hm ho a r hq
        · exact ih qs hqs r hr

theorem mentions_new {L L' : LangRec} {new : List Nat} {r : Nat} (h : L'.Mentions r)
    (h1 : ∀ s x, L'.sorts s = some x → L.sorts s = some x ∨ x ∈ new)
    (h2 : ∀ s x, L'.preds s = some x → L.preds s = some x ∨ ∀ q ∈ x, q ∈ new)
    (h3 : ∀ s x, L'.funs s = some x → L.funs s = some x ∨ ∀ q ∈ x, q ∈ new)
    (h4 : ∀ s x, L'.consts s = some x → L.consts s = some x ∨ x ∈ new)
    (h5 : ∀ s x, L'.index s = some x → L.index s = some x ∨ ∀ q ∈ x.refs, q ∈ new)
    (h6 : ∀ s x, L'.parent s = some (some x) → L.parent s = some (some x) ∨ x ∈ new)
    (h7 : ∀ s x, L'.anc s = some x → L.anc s = some x ∨ ∀ q ∈ x, q ∈ new)
    : L.Mentions r ∨ r ∈ new := by
  rcases h.any with ⟨s, h⟩ | ⟨s, x, h, hx⟩ | ⟨s, x, h, hx⟩ | ⟨s, h⟩ | ⟨s, x, h, hx⟩ | ⟨s, h⟩ | ⟨s, x, h, hx⟩
  · rcases h1 s r h with h | h
    · exact Or.inl ⟨Or.inl ⟨s, h⟩⟩
    · exact Or.inr h
  · rcases h2 s x h with h | h
    · exact Or.inl ⟨Or.inr (Or.inl ⟨s, x, h, hx⟩)⟩
    · exact Or.inr (h r hx)
  · rcases h3 s x h with h | h
    · exact Or.inl ⟨Or.inr (Or.inr (Or.inl ⟨s, x, h, hx⟩))⟩
    · exact Or.inr (h r hx)
  · rcases h4 s r h with h | h
    · exact Or.inl ⟨Or.inr (Or.inr (Or.inr (Or.inl ⟨s, h⟩)))⟩
    · exact Or.inr h
  · rcases h5 s x h with h | h
    · exact Or.inl ⟨Or.inr (Or.inr (Or.inr (Or.inr (Or.inl ⟨s, x, h, hx⟩))))⟩
    · exact Or.inr (h r hx)
  · rcases h6 s r h with h | h
    · exact Or.inl ⟨Or.inr (Or.inr (Or.inr (Or.inr (Or.inr (Or.inl ⟨s, h⟩)))))⟩
    · exact Or.inr h
  · rcases h7 s x h with h | h
    · exact Or.inl ⟨Or.inr (Or.inr (Or.inr (Or.inr (Or.inr (Or.inr ⟨s, x, h, hx⟩)))))⟩
    · exact Or.inr (h r hx)

theorem upd_some {β : Type} (f : String → Option β) (a s : String) (b x : β) (h : upd f a (some b) s = some x) :
    f s = some x ∨ x = b := by
  unfold upd at h
  split at h
  · exact Or.inr (by simpa using h.symm)
  · exact Or.inl h

theorem checkNew_none {L : LangRec} {b : Bool} {name : String} (h : L.checkNew b name = none) :
    b = false ∧ L.index name = none := by
  unfold LangRec.checkNew at h
  split at h
  · simp at h
  · split at h
    · simp at h
    · rename_i h1 h2
      exact ⟨by simpa using h1, by simpa using h2⟩

theorem setLang_self (w : World) (l : Nat) (L : LangRec) : (w.setLang l L).lang l = L := by
  simp [World.setLang, upd]

theorem setLang_other (w : World) (l m : Nat) (L : LangRec) (h : m ≠ l) : (w.setLang l L).lang m = w.lang m := by
  simp [World.setLang, upd, h]

theorem frame_setLang (Q : Nat → Prop) (w : World) (l : Nat) (L : LangRec) (hm : ∀ r, L.Mentions r → Q r)
    (hs : ∀ s r, (w.lang l).sorts s = some r → L.sorts s = some r) : Frame Q l w (w.setLang l L) := by
  refine ⟨rfl, fun m h => setLang_other w l m L h, Nat.le_refl _, fun _ _ => ⟨rfl, rfl⟩,
    fun r h1 h2 => absurd h2 (Nat.not_lt.2 h1), fun _ _ _ => rfl, ?_, ?_⟩
  · intro r hr
    rw [setLang_self] at hr
    exact Or.inl (hm r hr)
  · intro s r h
    rw [setLang_self]
    exact hs s r h

theorem wsetParent_frame (Q : Nat → Prop) (n : Nat) (w : World) (l r p : Nat) (w' : World) (e : Option Err)
    (hm : ∀ r, (w.lang l).Mentions r → Q r) (hQ : Closed w Q) (hp : Q p)
    (h : w.setParent n l r p = some (w', e)) : Frame Q l w w' ∧ w'.objs = w.objs ∧ w'.obj = w.obj := by
  unfold World.setParent at h
  split at h
  · simp only [Option.some.injEq, Prod.mk.injEq] at h
    rw [← h.1]
    exact ⟨frame_refl Q l w hm, rfl, rfl⟩
  · simp only at h
    split at h
    · simp only [Option.some.injEq, Prod.mk.injEq] at h
      rw [← h.1]
      exact ⟨frame_refl Q l w hm, rfl, rfl⟩
    · have hm1 : ∀ q, ({ w.lang l with parent := upd (w.lang l).parent (w.obj r).name (some (some p)) } : LangRec).Mentions q → Q q := by
        intro q hq
        rcases mentions_new hq (new := [p]) (L := w.lang l) (fun _ _ h => Or.inl h) (fun _ _ h => Or.inl h)
          (fun _ _ h => Or.inl h) (fun _ _ h => Or.inl h) (fun _ _ h => Or.inl h)
          (fun s x h => (upd_some _ _ _ _ _ h).imp id (fun h => by simp at h; simp [h])) (fun _ _ h => Or.inl h) with h | h
        · exact hm q h
        · simp only [List.mem_singleton] at h
          exact h ▸ hp
      generalize hw1 : w.setLang l _ = w1 at h
      have hf1 : Frame Q l w w1 := by
        rw [← hw1]
        exact frame_setLang Q w l _ hm1 (fun _ _ h => h)
      have ho1 : w1.objs = w.objs ∧ w1.obj = w.obj := by rw [← hw1]; exact ⟨rfl, rfl⟩
      have hm1' : ∀ q, (w1.lang l).Mentions q → Q q := by
        intro q hq
        rw [← hw1, setLang_self] at hq
        exact hm1 q hq
      have hQ1 : Closed w1 Q := by
        intro a ha q hq
        rw [ho1.2] at hq
        by_cases hl : (w.obj a).owner = l
        · rw [hl] at hq
          exact hm1' q hq
        · rw [hf1.other _ hl] at hq
          exact hQ a ha q hq
      split at h
      · simp at h
      · simp only [Option.some.injEq, Prod.mk.injEq] at h
        rw [← h.1]
        exact ⟨hf1, ho1⟩
      · rename_i c hc
        simp only [Option.some.injEq, Prod.mk.injEq] at h
        rw [← h.1]
        have hcQ := closure_closed w1 Q hQ1 n p c hp hc
        refine ⟨?_, ho1.1, ho1.2⟩
        have hf2 := frame_setLang Q w1 l
          { w1.lang l with anc := upd (w1.lang l).anc (w.obj r).name (some (w1.addAnc ((w1.lang l).ancD (w.obj r).name) c)) }
          (by
            intro q hq
            rcases mentions_new hq (new := w1.addAnc ((w1.lang l).ancD (w.obj r).name) c) (L := w1.lang l)
              (fun _ _ h => Or.inl h) (fun _ _ h => Or.inl h) (fun _ _ h => Or.inl h) (fun _ _ h => Or.inl h)
              (fun _ _ h => Or.inl h) (fun _ _ h => Or.inl h)
              (fun s x h => (upd_some _ _ _ _ _ h).imp id (fun h q hx => by subst h; exact hx)) with h | h
            · exact hm1' q h
            · rcases addAnc_mem w1 c _ q h with h | h
              · unfold LangRec.ancD at h
                split at h
                · rename_i x hx
                  exact hm1' q ⟨Or.inr (Or.inr (Or.inr (Or.inr (Or.inr (Or.inr ⟨_, x, hx, h⟩)))))⟩
                · simp at h
              · exact hcQ q h)
          (fun _ _ h => h)
        refine ⟨hf2.langs.trans hf1.langs, fun m hm => (hf2.other m hm).trans (hf1.other m hm), ?_, ?_, ?_, ?_, ?_, ?_⟩
        · exact Nat.le_of_eq ho1.1.symm
        · intro a _
          show (w1.obj a).name = _ ∧ (w1.obj a).owner = _
          rw [ho1.2]
          exact ⟨rfl, rfl⟩
        · intro a h1 h2
          have h2' : a < w1.objs := h2
          rw [ho1.1] at h2'
          exact absurd h2' (Nat.not_lt.2 h1)
        · intro a _ _
          show (w1.obj a).dom = _
          rw [ho1.2]
        · intro a ha
          rcases hf2.mentions a ha with h | h
          · exact Or.inl h
          · exact absurd h.2 (Nat.not_lt.2 h.1)
        · intro s a hs
          exact hf2.sorts s a (hf1.sorts s a hs)

theorem call_frame (Q : Nat → Prop) (n : Nat) (w : World) (l : Nat) (c : LCall) (w' : World) (e : Option Err)
    (hm : ∀ r, (w.lang l).Mentions r → Q r) (ho : ∀ r, r < w.objs → (w.obj r).owner = l → Q r) (hQ : Closed w Q)
    (hlt : ∀ r, Q r → r < w.objs)
    (h : w.call n l c = some (w', e)) : Frame Q l w w' := by
  cases c with
  | pred name args =>
    simp only [World.call, Option.some.injEq] at h
    unfold World.declPred at h
    split at h
    · simp only [Prod.mk.injEq] at h; rw [← h.1]; exact frame_refl Q l w hm
    · split at h
      · simp only [Prod.mk.injEq] at h; rw [← h.1]; exact frame_refl Q l w hm
      · rename_i rs hrs
        split at h
        · simp only [Prod.mk.injEq] at h
          rw [← h.1]
          refine frame_setLang Q w l _ ?_ (fun _ _ h => h)
          intro q hq
          rcases mentions_new hq (new := rs) (L := w.lang l) (fun _ _ h => Or.inl h)
            (fun s x h => (upd_some _ _ _ _ _ h).imp id (fun h q hx => by subst h; exact hx)) (fun _ _ h => Or.inl h)
            (fun _ _ h => Or.inl h) (fun s x h => (upd_some _ _ _ _ _ h).imp id (fun h q hx => by subst h; exact hx))
            (fun _ _ h => Or.inl h) (fun _ _ h => Or.inl h) with h | h
          · exact hm q h
          · exact retrieveAll_ok w l Q hm ho args rs hrs q h
        · simp only [Prod.mk.injEq] at h; rw [← h.1]; exact frame_refl Q l w hm
  | func name args =>
    simp only [World.call, Option.some.injEq] at h
    unfold World.declFunc at h
    split at h
    · simp only [Prod.mk.injEq] at h; rw [← h.1]; exact frame_refl Q l w hm
    · split at h
      · simp only [Prod.mk.injEq] at h; rw [← h.1]; exact frame_refl Q l w hm
      · rename_i rs hrs
        split at h
        · simp only [Prod.mk.injEq] at h; rw [← h.1]; exact frame_refl Q l w hm
        · split at h
          · simp only [Prod.mk.injEq] at h
            rw [← h.1]
            refine frame_setLang Q w l _ ?_ (fun _ _ h => h)
            intro q hq
            rcases mentions_new hq (new := rs) (L := w.lang l) (fun _ _ h => Or.inl h) (fun _ _ h => Or.inl h)
              (fun s x h => (upd_some _ _ _ _ _ h).imp id (fun h q hx => by subst h; exact hx))
              (fun _ _ h => Or.inl h) (fun s x h => (upd_some _ _ _ _ _ h).imp id (fun h q hx => by subst h; exact hx))
              (fun _ _ h => Or.inl h) (fun _ _ h => Or.inl h) with h | h
            · exact hm q h
            · exact retrieveAll_ok w l Q hm ho args rs hrs q h
          · simp only [Prod.mk.injEq] at h; rw [← h.1]; exact frame_refl Q l w hm
  | const name sort =>
    simp only [World.call] at h
    unfold World.declConst at h
    split at h
    · simp only [Option.some.injEq, Prod.mk.injEq] at h; rw [← h.1]; exact frame_refl Q l w hm
    · rename_i r hr
      have hQr := retrieve_ok w l Q hm ho sort r hr
      have hdom : ∀ (v : World), DomOnly Q w v → Frame Q l w v := fun v hv =>
        ⟨hv.langs, fun m _ => by rw [hv.lang], Nat.le_of_eq hv.objs.symm, fun r _ => hv.name r,
          fun r h1 h2 => absurd h2 (Nat.not_lt.2 (hv.objs ▸ h1)), fun r _ h => hv.dom r h,
          fun r h => Or.inl (hm r (by rw [hv.lang] at h; exact h)), fun s r h => by rw [hv.lang]; exact h⟩
      split at h
      · simp only [Option.some.injEq, Prod.mk.injEq] at h; rw [← h.1]; exact frame_refl Q l w hm
      · split at h
        · simp at h
        · rename_i v e' hv
          simp only [Option.some.injEq, Prod.mk.injEq] at h
          rw [← h.1]
          exact hdom v (extend_only Q name n w r v _ hQ hQr hv)
        · rename_i v hv
          simp only [Option.some.injEq, Prod.mk.injEq] at h
          rw [← h.1]
          have hv' := extend_only Q name n w r v _ hQ hQr hv
          have hf1 := hdom v hv'
          have hmv : ∀ q, (v.lang l).Mentions q → Q q := fun q hq => hm q (by rw [hv'.lang] at hq; exact hq)
          have hf2 := frame_setLang Q v l
            { v.lang l with consts := upd (v.lang l).consts name (some r), index := upd (v.lang l).index name (some (.const name r)) }
            (by
              intro q hq
              rcases mentions_new hq (new := [r]) (L := v.lang l) (fun _ _ h => Or.inl h) (fun _ _ h => Or.inl h)
                (fun _ _ h => Or.inl h) (fun s x h => (upd_some _ _ _ _ _ h).imp id (fun h => by simp [h]))
                (fun s x h => (upd_some _ _ _ _ _ h).imp id (fun h q hx => by subst h; exact hx))
                (fun _ _ h => Or.inl h) (fun _ _ h => Or.inl h) with h | h
              · exact hmv q h
              · simp only [List.mem_singleton] at h
                exact h ▸ hQr)
            (fun _ _ h => h)
          exact ⟨hf2.langs.trans hf1.langs, fun m hm => (hf2.other m hm).trans (hf1.other m hm),
            Nat.le_of_eq hv'.objs.symm, fun a _ => hv'.name a,
            fun a h1 h2 => absurd (show a < v.objs from h2) (Nat.not_lt.2 (hv'.objs ▸ h1)),
            fun a _ h => hv'.dom a h,
            fun a ha => (hf2.mentions a ha).imp id (fun h => absurd h.2 (Nat.not_lt.2 h.1)),
            fun s a hs => hf2.sorts s a (hf1.sorts s a hs)⟩
  | sort name parent =>
    simp only [World.call] at h
    unfold World.declSort at h
    split at h
    · simp only [Option.some.injEq, Prod.mk.injEq] at h; rw [← h.1]; exact frame_refl Q l w hm
    · rename_i p hp
      have hQp := retrieve_ok w l Q hm ho _ p hp
      split at h
      · simp only [Option.some.injEq, Prod.mk.injEq] at h; rw [← h.1]; exact frame_refl Q l w hm
      · rename_i hnew
        obtain ⟨hns, _⟩ := checkNew_none hnew
        simp only at h
        generalize hw1 : ({ w with objs := w.objs + 1, obj := upd w.obj w.objs ⟨name, l, []⟩ } : World) = w1 at h
        generalize hL : ({ w.lang l with sorts := upd (w.lang l).sorts name (some w.objs), index := upd (w.lang l).index name (some (.sort w.objs)) } : LangRec) = L at h
        have hlang : w1.lang = w.lang := by rw [← hw1]
        have hobj : ∀ r, r < w.objs → w1.obj r = w.obj r := by
          intro r hr
          rw [← hw1]
          simp [upd, Nat.ne_of_lt hr]
        have hnewobj : w1.obj w.objs = ⟨name, l, []⟩ := by rw [← hw1]; simp [upd]
        have hobjs : w1.objs = w.objs + 1 := by rw [← hw1]
        have hlangs : w1.langs = w.langs := by rw [← hw1]
        let Q' : Nat → Prop := fun r => Q r ∨ r = w.objs
        have hmL : ∀ q, L.Mentions q → Q' q := by
          intro q hq
          rw [← hL] at hq
          rcases mentions_new hq (new := [w.objs]) (L := w.lang l)
            (fun s x h => (upd_some _ _ _ _ _ h).imp id (fun h => by simp [h])) (fun _ _ h => Or.inl h)
            (fun _ _ h => Or.inl h) (fun _ _ h => Or.inl h)
            (fun s x h => (upd_some _ _ _ _ _ h).imp id (fun h q hx => by subst h; exact hx))
            (fun _ _ h => Or.inl h) (fun _ _ h => Or.inl h) with h | h
          · exact Or.inl (hm q h)
          · exact Or.inr (by simpa using h)
        have hs2 : ∀ s r, (w.lang l).sorts s = some r → L.sorts s = some r := by
          intro s r hs
          rw [← hL]
          by_cases hsn : s = name
          · subst hsn; rw [hs] at hns; simp at hns
          · simpa [upd, hsn] using hs
        have hQ2 : Closed (w1.setLang l L) Q' := by
          intro a ha q hq
          have hob : (w1.setLang l L).obj a = w1.obj a := rfl
          rw [hob] at hq
          by_cases hl : (w1.obj a).owner = l
          · rw [hl, setLang_self] at hq
            exact hmL q hq
          · rw [setLang_other _ _ _ _ hl, hlang] at hq
            rcases ha with ha | ha
            · rw [hobj a (hlt a ha)] at hq
              exact Or.inl (hQ a ha q hq)
            · subst ha
              rw [hnewobj] at hl
              exact absurd rfl hl
        obtain ⟨hf, hfo, hfobj⟩ := wsetParent_frame Q' n (w1.setLang l L) l w.objs p w' e
          (by intro q hq; rw [setLang_self] at hq; exact hmL q hq) hQ2 (Or.inl hQp) h
        have hw'o : w'.objs = w.objs + 1 := hfo.trans hobjs
        have hw'obj : w'.obj = w1.obj := hfobj
        refine ⟨hf.langs.trans hlangs, ?_, ?_, ?_, ?_, ?_, ?_, ?_⟩
        · intro m hml
          rw [hf.other m hml, setLang_other _ _ _ _ hml, hlang]
        · rw [hw'o]; exact Nat.le_succ _
        · intro a ha
          rw [hw'obj, hobj a ha]
          exact ⟨rfl, rfl⟩
        · intro a h1 h2
          have : a = w.objs := by omega
          subst this
          rw [hw'obj, hnewobj]
        · intro a ha _
          rw [hw'obj, hobj a ha]
        · intro a ha
          rcases hf.mentions a ha with h | h
          · rcases h with h | h
            · exact Or.inl h
            · right; omega
          · exfalso
            have h1 : w1.objs ≤ a := h.1
            omega
        · intro s a hs
          exact hf.sorts s a (by rw [setLang_self]; exact hs2 s a hs)

/-- References lead to existing objects, made for existing languages. -/
structure Valid (w : World) : Prop where
  refs : ∀ m, m < w.langs → ∀ r, (w.lang m).Mentions r → r < w.objs
  owners : ∀ r, r < w.objs → (w.obj r).owner < w.langs

/-- What every step does, told for one language `l` that existed before. -/
structure Steps (w w' : World) : Prop where
  langs : w.langs ≤ w'.langs
  objs : w.objs ≤ w'.objs
  name : ∀ r, r < w.objs → (w'.obj r).name = (w.obj r).name ∧ (w'.obj r).owner = (w.obj r).owner
  sorts : ∀ l, l < w.langs → ∀ s r, (w.lang l).sorts s = some r → (w'.lang l).sorts s = some r

/-- The step is a call on language `l`. -/
def WOp.CallsOn : WOp → Nat → Prop
  | .call m _, l => m = l
  | _, _ => False

theorem valid_empty : Valid World.empty :=
  ⟨fun m h => absurd h (Nat.not_lt_zero m), fun r h => absurd h (Nat.not_lt_zero r)⟩

theorem init_mentions (o r : Nat) (h : ({ sorts := upd (fun _ => none) "object" (some o), preds := fun _ => none, funs := fun _ => none, consts := fun _ => none, index := upd (fun _ => none) "object" (some (.sort o)), parent := upd (fun _ => none) "object" (some none), anc := upd (fun _ => none) "object" (some []) } : LangRec).Mentions r) : r = o := by
  rcases h.any with ⟨s, h⟩ | ⟨s, x, h, hx⟩ | ⟨s, x, h, hx⟩ | ⟨s, h⟩ | ⟨s, x, h, hx⟩ | ⟨s, h⟩ | ⟨s, x, h, hx⟩
  · dsimp only at h
    rcases upd_some _ _ _ _ _ h with h | h
    · simp at h
    · exact h
  · simp at h
  · simp at h
  · simp at h
  · dsimp only at h
    rcases upd_some _ _ _ _ _ h with h | h
    · simp at h
    · subst h; simpa [GObj.refs] using hx
  · dsimp only at h
    rcases upd_some _ _ _ _ _ h with h | h
    · simp at h
    · simp at h
  · dsimp only at h
    rcases upd_some _ _ _ _ _ h with h | h
    · simp at h
    · subst h; simp at hx

theorem step_valid (n : Nat) (w w' : World) (op : WOp) (hv : Valid w) (h : w.step n op = some w') :
    Valid w' ∧ Steps w w' ∧ ∀ l, l < w.langs → ¬ op.CallsOn l → w'.lang l = w.lang l := by
  have alloc : ∀ (L : LangRec) (v : World), v = ⟨w.langs + 1, upd w.lang w.langs L, w.objs + 1, upd w.obj w.objs ⟨"object", w.langs, []⟩⟩ →
      (∀ r, L.Mentions r → r < w.objs + 1) → Valid v ∧ Steps w v ∧ ∀ l, l < w.langs → v.lang l = w.lang l := by
    intro L v hv' hL
    subst hv'
    have hlang : ∀ l, l < w.langs → upd w.lang w.langs L l = w.lang l := fun l hl => by
      simp [upd, Nat.ne_of_lt hl]
    have hobj : ∀ r, r < w.objs → upd w.obj w.objs ⟨"object", w.langs, []⟩ r = w.obj r := fun r hr => by
      simp [upd, Nat.ne_of_lt hr]
    refine ⟨⟨?_, ?_⟩, ⟨Nat.le_succ _, Nat.le_succ _, ?_, ?_⟩, hlang⟩
    · intro m hm r hr
      by_cases h : m = w.langs
      · subst h
        simp only [upd, if_true] at hr
        exact hL r hr
      · have hm' : m < w.langs := by simp only at hm; omega
        simp only [hlang m hm'] at hr
        exact Nat.lt_succ_of_lt (hv.refs m hm' r hr)
    · intro r hr
      by_cases h : r = w.objs
      · subst h; simp [upd]
      · have hr' : r < w.objs := by simp only at hr; omega
        simp only [hobj r hr']
        exact Nat.lt_succ_of_lt (hv.owners r hr')
    · intro r hr
      simp only [hobj r hr]
      exact ⟨trivial, trivial⟩
    · intro l hl s r hs
      simp only [hlang l hl]
      exact hs
  cases op with
  | new =>
    simp only [World.step, Option.some.injEq] at h
    have := alloc _ w' h.symm (fun r hr => by rw [init_mentions _ r hr]; exact Nat.lt_succ_self _)
    exact ⟨this.1, this.2.1, fun l hl _ => this.2.2 l hl⟩
  | copy l =>
    simp only [World.step] at h
    split at h
    · rename_i hl
      simp only [Option.some.injEq] at h
      have := alloc _ w' h.symm (fun r hr => Nat.lt_succ_of_lt (hv.refs l hl r hr))
      exact ⟨this.1, this.2.1, fun l hl _ => this.2.2 l hl⟩
    · simp at h
  | call l c =>
    simp only [World.step] at h
    split at h
    · rename_i hl
      simp only [Option.map_eq_some_iff] at h
      obtain ⟨⟨v, e⟩, hc, rfl⟩ := h
      have hf := call_frame (fun r => r < w.objs) n w l c v e (hv.refs l hl) (fun r h _ => h)
        (fun r hr q hq => hv.refs _ (hv.owners r hr) q hq) (fun r h => h) hc
      refine ⟨⟨?_, ?_⟩, ⟨Nat.le_of_eq hf.langs.symm, hf.objs, hf.name, ?_⟩, ?_⟩
      · intro m hm r hr
        by_cases h : m = l
        · subst h
          rcases hf.mentions r hr with h | h
          · exact Nat.lt_of_lt_of_le h hf.objs
          · exact h.2
        · rw [hf.other m h] at hr
          exact Nat.lt_of_lt_of_le (hv.refs m (hf.langs ▸ hm) r hr) hf.objs
      · intro r hr
        show (v.obj r).owner < v.langs
        rw [hf.langs]
        by_cases h : r < w.objs
        · rw [(hf.name r h).2]
          exact hv.owners r h
        · rw [hf.fresh r (Nat.le_of_not_lt h) hr]
          exact hl
      · intro m hm s r hs
        by_cases h : m = l
        · subst h; exact hf.sorts s r hs
        · show (v.lang m).sorts s = some r
          rw [hf.other m h]; exact hs
      · intro m hm hnot
        exact hf.other m (fun h => hnot h.symm)
    · simp at h

theorem run_valid (n : Nat) : ∀ (ops : List WOp) (w w' : World), Valid w → World.run n w ops = some w' →
    Valid w' ∧ Steps w w' ∧ ∀ l, l < w.langs → (∀ op ∈ ops, ¬ op.CallsOn l) → w'.lang l = w.lang l := by
  intro ops
  induction ops with
  | nil =>
    intro w w' hv h
    simp only [World.run, Option.some.injEq] at h
    subst h
    exact ⟨hv, ⟨Nat.le_refl _, Nat.le_refl _, fun _ _ => ⟨rfl, rfl⟩, fun _ _ _ _ h => h⟩, fun _ _ _ => rfl⟩
  | cons op ops ih =>
    intro w w' hv h
    simp only [World.run] at h
    split at h
    · simp at h
    · rename_i v hst
      obtain ⟨hv1, hs1, hl1⟩ := step_valid n w v op hv hst
      obtain ⟨hv2, hs2, hl2⟩ := ih v w' hv1 h
      refine ⟨hv2, ⟨Nat.le_trans hs1.langs hs2.langs, Nat.le_trans hs1.objs hs2.objs, ?_, ?_⟩, ?_⟩
      · intro r hr
        have h1 := hs1.name r hr
        have h2 := hs2.name r (Nat.lt_of_lt_of_le hr hs1.objs)
        exact ⟨h2.1.trans h1.1, h2.2.trans h1.2⟩
      · intro l hl s r hs
        exact hs2.sorts l (Nat.lt_of_lt_of_le hl hs1.langs) s r (hs1.sorts l hl s r hs)
      · intro l hl hno
        rw [hl2 l (Nat.lt_of_lt_of_le hl hs1.langs) (fun op hop => hno op (List.mem_cons_of_mem _ hop)),
          hl1 l hl (hno op (List.mem_cons_self ..))]

/-- `w` is the state of some program. -/
def Reached (n : Nat) (w : World) : Prop := ∃ hist, World.run n World.empty hist = some w

theorem Reached.valid {n : Nat} {w : World} (h : Reached n w) : Valid w := by
  obtain ⟨hist, h⟩ := h
  exact (run_valid n hist _ _ valid_empty h).1

/-- Whatever a program does with its other languages — copies of this one included — all the dictionaries of a
language stay as they are, and so does what `get` returns for each name. -/
theorem C103_names_partial (n : Nat) (w w' : World) (ops : List WOp) (l : Nat) (hw : Reached n w) (hl : l < w.langs)
    (hno : ∀ op ∈ ops, ¬ op.CallsOn l) (h : World.run n w ops = some w') :
    w'.lang l = w.lang l ∧ ∀ name, w'.get l name = w.get l name := by
  obtain ⟨_, hs, hl'⟩ := run_valid n ops w w' hw.valid h
  have heq := hl' l hl hno
  refine ⟨heq, ?_⟩
  intro name
  have hnm : ∀ r, (w.lang l).Mentions r → (w'.obj r).name = (w.obj r).name := fun r hr =>
    (hs.name r (hw.valid.refs l hl r hr)).1
  have hmen : ∀ g, (w.lang l).index name = some g → ∀ r ∈ g.refs, (w.lang l).Mentions r := fun g hg r hr =>
    ⟨Or.inr (Or.inr (Or.inr (Or.inr (Or.inl ⟨name, g, hg, hr⟩))))⟩
  simp only [World.get, heq]
  cases hg : (w.lang l).index name with
  | none => rfl
  | some g =>
    have hg' := hmen g hg
    cases g with
    | sort r => simp only; rw [hnm r (hg' r (by simp [GObj.refs]))]
    | const c r => simp only; rw [hnm r (hg' r (by simp [GObj.refs]))]
    | pred p rs => exact congrArg (fun x => Except.ok (LObj.pred p x)) (List.map_congr_left fun r hr => hnm r (hg' r hr))
    | func p rs => exact congrArg (fun x => Except.ok (LObj.func p x)) (List.map_congr_left fun r hr => hnm r (hg' r hr))

/-- A copy answers like the original: names, sorts' members, iteration over sorts. -/
theorem C103_copy_same (n : Nat) (w : World) (l : Nat) (hw : Reached n w) (hl : l < w.langs) :
    (∀ name, (w.copy l).get w.langs name = w.get l name) ∧
    (∀ s, (w.copy l).members w.langs s = w.members l s) ∧
    (∀ s, (w.copy l).domain w.langs s = w.domain l s) := by
  have hobj : ∀ r, (w.lang l).Mentions r → (w.copy l).obj r = w.obj r := fun r hr => by
    have := hw.valid.refs l hl r hr
    simp [World.copy, upd, Nat.ne_of_lt this]
  have hL : (w.copy l).lang w.langs = w.lang l := by simp [World.copy, upd]
  refine ⟨?_, ?_, ?_⟩
  · intro name
    have hmen : ∀ g, (w.lang l).index name = some g → ∀ r ∈ g.refs, (w.lang l).Mentions r := fun g hg r hr =>
      ⟨Or.inr (Or.inr (Or.inr (Or.inr (Or.inl ⟨name, g, hg, hr⟩))))⟩
    simp only [World.get, hL]
    cases hg : (w.lang l).index name with
    | none => rfl
    | some g =>
      have hg' := hmen g hg
      cases g with
      | sort r => simp only; rw [hobj r (hg' r (by simp [GObj.refs]))]
      | const c r => simp only; rw [hobj r (hg' r (by simp [GObj.refs]))]
      | pred p rs => exact congrArg (fun x => Except.ok (LObj.pred p x)) (List.map_congr_left fun r hr => by rw [hobj r (hg' r hr)])
      | func p rs => exact congrArg (fun x => Except.ok (LObj.func p x)) (List.map_congr_left fun r hr => by rw [hobj r (hg' r hr)])
  · intro s
    simp only [World.members, hL]
    cases hs : (w.lang l).sorts s with
    | none => rfl
    | some r => simp only; rw [hobj r ⟨Or.inl ⟨s, hs⟩⟩]
  · intro s
    simp only [World.domain, hL]
    cases hs : (w.lang l).sorts s with
    | none => rfl
    | some r =>
      have hm : (w.lang l).Mentions r := ⟨Or.inl ⟨s, hs⟩⟩
      have ho := hw.valid.owners r (hw.valid.refs l hl r hm)
      have : (w.copy l).lang (w.obj r).owner = w.lang (w.obj r).owner := by
        simp [World.copy, upd, Nat.ne_of_lt ho]
      simp only [hobj r hm, this]

/-- The copy and the original share their sorts for good: at all later times, whatever the program does, a sort the
original had when it was copied has the same members in both. -/
theorem C103_copy_shares (n : Nat) (w w' : World) (l : Nat) (ops : List WOp) (s : String) (hw : Reached n w)
    (hl : l < w.langs) (hs : ((w.lang l).sorts s).isSome) (h : World.run n (w.copy l) ops = some w') :
    ∃ c, w'.members l s = .ok c ∧ w'.members w.langs s = .ok c := by
  obtain ⟨hv, hst, _⟩ := step_valid n w (w.copy l) (.copy l) hw.valid (by simp [World.step, hl])
  obtain ⟨_, hst2, _⟩ := run_valid n ops _ w' hv h
  obtain ⟨r, hr⟩ := Option.isSome_iff_exists.1 hs
  have h1 := hst2.sorts l (Nat.lt_of_lt_of_le hl hst.langs) s r (hst.sorts l hl s r hr)
  have h2 := hst2.sorts w.langs (Nat.lt_succ_self _) s r (by simp [World.copy, upd, hr])
  exact ⟨(w'.obj r).dom, by simp [World.members, h1], by simp [World.members, h2]⟩

/-- The full statement: what is done with the copy is not seen in the original. -/
def CopyIndependent : Prop :=
  ∀ (n : Nat) (w w' : World) (l : Nat) (ops : List WOp), Reached n w → l < w.langs → (∀ op ∈ ops, ¬ op.CallsOn l) →
    World.run n (w.copy l) ops = some w' → ∀ s, w'.members l s = w.members l s

/-- It does not hold: a constant declared in the copy becomes a member of the sort of the original, where
`Sort.domain` then fails, since the original has no such constant. -/
theorem C103_independent_refuted : ¬ CopyIndependent := by
  intro h
  have := h 5 World.empty.newLang (((World.empty.newLang.copy 0).declConst 5 1 "c" (.name "object")).getD (World.empty, none) |>.1) 0
    [.call 1 (.const "c" (.name "object"))] ⟨[.new], rfl⟩ (by decide) (by simp [WOp.CallsOn]) rfl "object"
  exact absurd this (by decide)

example : (World.run 5 World.empty [.new, .copy 0, .call 1 (.const "c" (.name "object"))]).map
    (fun w => (w.members 0 "object", w.domain 0 "object", w.get 0 "c", w.get 1 "c")) =
    some (.ok ["c"], .error .undefinedVariable, .error .undefinedVariable, .ok (.const "c" "object")) := by decide

/-- A sort the language `l` had when it was copied, seen later in the copy. -/
theorem inherited (n : Nat) (w w' : World) (l : Nat) (ops : List WOp) (s : String) (hw : Reached n w)
    (hl : l < w.langs) (hs : ((w.lang l).sorts s).isSome) (h : World.run n (w.copy l) ops = some w') :
    ∃ r, r < w'.objs ∧ (w'.lang w.langs).sorts s = some r ∧ (w'.obj r).owner ≠ w.langs := by
  obtain ⟨hv, hst, _⟩ := step_valid n w (w.copy l) (.copy l) hw.valid (by simp [World.step, hl])
  obtain ⟨hv2, hst2, _⟩ := run_valid n ops _ w' hv h
  obtain ⟨r, hr⟩ := Option.isSome_iff_exists.1 hs
  have hro := hw.valid.refs l hl r ⟨Or.inl ⟨s, hr⟩⟩
  refine ⟨r, ?_, hst2.sorts w.langs (Nat.lt_succ_self _) s r (by simp [World.copy, upd, hr]), ?_⟩
  · exact Nat.lt_of_lt_of_le hro (Nat.le_trans hst.objs hst2.objs)
  · rw [(hst2.name r (Nat.lt_of_lt_of_le hro hst.objs)).2, (hst.name r hro).2]
    exact Nat.ne_of_lt (hw.valid.owners r hro)

/-- No sort can be declared in a copy below a sort of the original: the call raises an exception — and registers the
name all the same. -/
theorem C103_sort_refuted (n : Nat) (w w' : World) (l : Nat) (ops : List WOp) (s name : String) (parent : Option SArg)
    (hw : Reached n w) (hl : l < w.langs) (hs : ((w.lang l).sorts s).isSome)
    (h : World.run n (w.copy l) ops = some w') (hp : parent = some (.name s) ∨ (parent = none ∧ s = "object")) :
    ∃ w'' e, w'.call n w.langs (.sort name parent) = some (w'', some e) ∧
      (w'.get w.langs name = .error .undefinedVariable → (w'.lang w.langs).sorts name = none →
        e = .language ∧ w''.get w.langs name = .ok (.sort name)) := by
  obtain ⟨r, hlt, hr, hown⟩ := inherited n w w' l ops s hw hl hs h
  have hret : w'.retrieve w.langs (parent.getD (.name "object")) = .ok r := by
    rcases hp with rfl | ⟨rfl, rfl⟩ <;> simp [World.retrieve, hr]
  simp only [World.call, World.declSort, hret]
  cases hc : (w'.lang w.langs).checkNew ((w'.lang w.langs).sorts name).isSome name with
  | some e =>
    refine ⟨w', e, rfl, ?_⟩
    intro hg hns
    exfalso
    have : (w'.lang w.langs).index name = none := by
      simp only [World.get] at hg
      split at hg
      · assumption
      all_goals simp at hg
    simp [LangRec.checkNew, hns, this] at hc
  | none =>
    have hne : ∀ (v : World), v.obj r = w'.obj r → v.setParent n w.langs w'.objs r = some (v, some .language) := by
      intro v hv
      simp only [World.setParent, hv]
      rw [if_pos hown]
    refine ⟨_, .language, hne _ (by simp [World.setLang, upd, Nat.ne_of_lt hlt]), fun _ _ => ⟨rfl, ?_⟩⟩
    simp [World.get, World.setLang, upd]

theorem retrieveAll_mem (w : World) (m : Nat) (s : String) (r : Nat) (hr : (w.lang m).sorts s = some r) :
    ∀ (args : List SArg) (rs : List Nat), SArg.name s ∈ args → w.retrieveAll m args = .ok rs → r ∈ rs := by
  intro args
  induction args with
  | nil => intro rs h; simp at h
  | cons a as ih =>
    intro rs hmem h
    simp only [World.retrieveAll] at h
    split at h
    · simp at h
    · rename_i q hq
      split at h
      · simp at h
      · rename_i qs hqs
        simp only [Except.ok.injEq] at h
        subst h
        rcases List.mem_cons.1 hmem with hm | hm
        · subst hm
          simp only [World.retrieve, hr, Except.ok.injEq] at hq
          subst hq
          exact List.mem_cons_self ..
        · exact List.mem_cons_of_mem _ (ih qs hm hqs)

/-- No predicate and no function over a sort of the original can be declared in a copy: the call raises an exception
and changes nothing. -/
theorem C103_symbol_refuted (n : Nat) (w w' : World) (l : Nat) (ops : List WOp) (s name : String) (args : List SArg)
    (hw : Reached n w) (hl : l < w.langs) (hs : ((w.lang l).sorts s).isSome)
    (h : World.run n (w.copy l) ops = some w') (hargs : SArg.name s ∈ args) :
    (∃ e, w'.call n w.langs (.pred name args) = some (w', some e)) ∧
    (∃ e, w'.call n w.langs (.func name args) = some (w', some e)) := by
  obtain ⟨r, hlt, hr, hown⟩ := inherited n w w' l ops s hw hl hs h
  have hall : ∀ rs, w'.retrieveAll w.langs args = .ok rs → w'.ownAll w.langs rs = false := by
    intro rs hrs
    have := retrieveAll_mem w' w.langs s r hr args rs hargs hrs
    simp only [World.ownAll, List.all_eq_false]
    exact ⟨r, this, by simpa using hown⟩
  constructor
  · simp only [World.call, World.declPred]
    split
    · exact ⟨_, rfl⟩
    · split
      · exact ⟨_, rfl⟩
      · rename_i rs hrs
        rw [hall rs hrs]
        exact ⟨_, rfl⟩
  · simp only [World.call, World.declFunc]
    split
    · exact ⟨_, rfl⟩
    · split
      · exact ⟨_, rfl⟩
      · rename_i rs hrs
        rw [hall rs hrs]
        split
        · exact ⟨_, rfl⟩
        · exact ⟨_, rfl⟩

/-- Language `a` and the other languages have no sort objects in common. -/
structure Separate (a : Nat) (w : World) : Prop where
  valid : Valid w
  here : a < w.langs
  sep : ∀ m, m < w.langs → ∀ r, (w.lang m).Mentions r → ((w.obj r).owner = a ↔ m = a)

theorem step_separate (a n : Nat) (w w' : World) (op : WOp) (hw : Separate a w) (hop : op ≠ .copy a)
    (h : w.step n op = some w') :
    Separate a w' ∧ (¬ op.CallsOn a → ∀ r, r < w.objs → (w.obj r).owner = a → (w'.obj r).dom = (w.obj r).dom) := by
  obtain ⟨hv', hs, hlang⟩ := step_valid n w w' op hw.valid h
  have ha' : a < w'.langs := Nat.lt_of_lt_of_le hw.here hs.langs
  have alloc : ∀ (L : LangRec), w' = ⟨w.langs + 1, upd w.lang w.langs L, w.objs + 1, upd w.obj w.objs ⟨"object", w.langs, []⟩⟩ →
      (∀ r, L.Mentions r → r = w.objs ∨ (r < w.objs ∧ (w.obj r).owner ≠ a)) →
      Separate a w' ∧ ∀ r, r < w.objs → (w.obj r).owner = a → (w'.obj r).dom = (w.obj r).dom := by
    intro L hw' hL
    have hobj : ∀ r, r < w.objs → w'.obj r = w.obj r := fun r hr => by
      subst hw'; simp [upd, Nat.ne_of_lt hr]
    have hnew : (w'.obj w.objs).owner = w.langs := by subst hw'; simp [upd]
    refine ⟨⟨hv', ha', ?_⟩, fun r hr _ => by rw [hobj r hr]⟩
    intro m hm r hr
    by_cases hml : m = w.langs
    · subst hml
      have hr' : L.Mentions r := by subst hw'; simpa [upd] using hr
      have hne : w.langs ≠ a := (Nat.ne_of_lt hw.here).symm
      rcases hL r hr' with rfl | ⟨h1, h2⟩
      · rw [hnew]
      · rw [hobj r h1]
        exact ⟨fun h => absurd h h2, fun h => absurd h hne⟩
    · have hm' : m < w.langs := by subst hw'; simp only at hm; omega
      have hr' : (w.lang m).Mentions r := by subst hw'; simpa [upd, hml] using hr
      rw [hobj r (hw.valid.refs m hm' r hr')]
      exact hw.sep m hm' r hr'
  cases op with
  | new =>
    simp only [World.step, Option.some.injEq] at h
    have := alloc _ h.symm (fun r hr => Or.inl (init_mentions _ r hr))
    exact ⟨this.1, fun _ => this.2⟩
  | copy l =>
    simp only [World.step] at h
    split at h
    · rename_i hl
      simp only [Option.some.injEq] at h
      have hla : l ≠ a := fun h => hop (by rw [h])
      have := alloc _ h.symm (fun r hr => Or.inr ⟨hw.valid.refs l hl r hr, fun ho => hla ((hw.sep l hl r hr).1 ho)⟩)
      exact ⟨this.1, fun _ => this.2⟩
    · simp at h
  | call l c =>
    simp only [World.step] at h
    split at h
    · rename_i hl
      simp only [Option.map_eq_some_iff] at h
      obtain ⟨⟨v, e⟩, hc, rfl⟩ := h
      have hf := call_frame (fun r => r < w.objs ∧ ((w.obj r).owner = a ↔ l = a)) n w l c v e
        (fun r hr => ⟨hw.valid.refs l hl r hr, hw.sep l hl r hr⟩)
        (fun r h1 h2 => ⟨h1, by rw [h2]⟩)
        (fun r hr q hq => ⟨hw.valid.refs _ (hw.valid.owners r hr.1) q hq,
          (hw.sep _ (hw.valid.owners r hr.1) q hq).trans hr.2⟩)
        (fun r h => h.1) hc
      refine ⟨⟨hv', ha', ?_⟩, ?_⟩
      · intro m hm r hr
        by_cases hml : m = l
        · subst hml
          rcases hf.mentions r hr with ⟨h1, h2⟩ | ⟨h1, h2⟩
          · show (v.obj r).owner = a ↔ _
            rw [(hf.name r h1).2]; exact h2
          · show (v.obj r).owner = a ↔ _
            rw [hf.fresh r h1 h2]
        · have hm' : m < w.langs := hf.langs ▸ hm
          have hr' : (w.lang m).Mentions r := by rw [← hf.other m hml]; exact hr
          show (v.obj r).owner = a ↔ _
          rw [(hf.name r (hw.valid.refs m hm' r hr')).2]
          exact hw.sep m hm' r hr'
      · intro hnot r hr ho
        refine hf.dom r hr ?_
        rintro ⟨_, h2⟩
        exact hnot (h2.1 ho)
    · simp at h

theorem run_separate (a n : Nat) : ∀ (ops : List WOp) (w w' : World), Separate a w → (∀ op ∈ ops, op ≠ .copy a) →
    World.run n w ops = some w' → Separate a w' ∧ ((∀ op ∈ ops, ¬ op.CallsOn a) →
      ∀ r, r < w.objs → (w.obj r).owner = a → (w'.obj r).dom = (w.obj r).dom) := by
  intro ops
  induction ops with
  | nil =>
    intro w w' hw _ h
    simp only [World.run, Option.some.injEq] at h
    subst h
    exact ⟨hw, fun _ _ _ _ => rfl⟩
  | cons op ops ih =>
    intro w w' hw hno h
    simp only [World.run] at h
    split at h
    · simp at h
    · rename_i v hst
      obtain ⟨h1, hd1⟩ := step_separate a n w v op hw (hno op (List.mem_cons_self ..)) hst
      obtain ⟨_, hs1, _⟩ := step_valid n w v op hw.valid hst
      obtain ⟨h2, hd2⟩ := ih v w' h1 (fun o ho => hno o (List.mem_cons_of_mem _ ho)) h
      refine ⟨h2, ?_⟩
      intro hc r hr ho
      rw [hd2 (fun o ho => hc o (List.mem_cons_of_mem _ ho)) r (Nat.lt_of_lt_of_le hr hs1.objs)
        (by rw [(hs1.name r hr).2]; exact ho), hd1 (hc op (List.mem_cons_self ..)) r hr ho]

/-- A language that was made from scratch and never copied is independent of all other languages, in every program:
calls on others change neither what its names stand for, nor the members of its sorts, nor what the iteration over a
sort gives. -/
theorem C103_separate_partial (n : Nat) (w₀ w w' : World) (hist ops : List WOp) (h₀ : Reached n w₀)
    (hh : ∀ op ∈ hist, op ≠ .copy w₀.langs) (hrun : World.run n w₀.newLang hist = some w)
    (ho : ∀ op ∈ ops, op ≠ .copy w₀.langs ∧ ¬ op.CallsOn w₀.langs) (hrun' : World.run n w ops = some w') :
    (∀ name, w'.get w₀.langs name = w.get w₀.langs name) ∧
    (∀ s, w'.members w₀.langs s = w.members w₀.langs s) ∧
    (∀ s, w'.domain w₀.langs s = w.domain w₀.langs s) := by
  have hv₁ := (step_valid n w₀ w₀.newLang .new h₀.valid rfl).1
  have hsep₁ : Separate w₀.langs w₀.newLang := by
    refine ⟨hv₁, Nat.lt_succ_self _, ?_⟩
    intro m hm r hr
    by_cases hml : m = w₀.langs
    · subst hml
      have : r = w₀.objs := init_mentions _ r (by simpa [World.newLang, upd] using hr)
      subst this
      simp [World.newLang, upd]
    · have hm' : m < w₀.langs := by simp only [World.newLang] at hm; omega
      have hr' : (w₀.lang m).Mentions r := by simpa [World.newLang, upd, hml] using hr
      have hlt := h₀.valid.refs m hm' r hr'
      have : w₀.newLang.obj r = w₀.obj r := by simp [World.newLang, upd, Nat.ne_of_lt hlt]
      rw [this]
      exact ⟨fun h => absurd h (Nat.ne_of_lt (h₀.valid.owners r hlt)), fun h => absurd h hml⟩
  obtain ⟨hsep, _⟩ := run_separate _ n hist _ w hsep₁ hh hrun
  obtain ⟨_, hdom⟩ := run_separate _ n ops w w' hsep (fun op h => (ho op h).1) hrun'
  have hdom := hdom (fun op h => (ho op h).2)
  obtain ⟨hist₀, h₀'⟩ := h₀
  have happ : ∀ (a b : List WOp) (u v : World), World.run n u a = some v → World.run n u (a ++ b) = World.run n v b := by
    intro a
    induction a with
    | nil => intro b u v h; simp only [World.run, Option.some.injEq] at h; subst h; rfl
    | cons o os ih =>
      intro b u v h
      simp only [World.run, List.cons_append] at h ⊢
      split at h
      · simp at h
      · rename_i x hx
        exact ih b x v h
  have hreach : Reached n w := ⟨hist₀ ++ WOp.new :: hist, by rw [happ _ _ _ _ h₀']; exact hrun⟩
  obtain ⟨heq, hget⟩ := C103_names_partial n w w' ops _ hreach hsep.here (fun op h => (ho op h).2) hrun'
  obtain ⟨_, hst, _⟩ := run_valid n ops w w' hsep.valid hrun'
  have hkey : ∀ s r, (w.lang w₀.langs).sorts s = some r →
      (w'.obj r).dom = (w.obj r).dom ∧ (w'.obj r).owner = w₀.langs ∧ (w.obj r).owner = w₀.langs := by
    intro s r hs
    have hm : (w.lang w₀.langs).Mentions r := ⟨Or.inl ⟨s, hs⟩⟩
    have hlt := hsep.valid.refs _ hsep.here r hm
    have hown := (hsep.sep _ hsep.here r hm).2 rfl
    exact ⟨hdom r hlt hown, (hst.name r hlt).2.trans hown, hown⟩
  refine ⟨hget, ?_, ?_⟩
  · intro s
    simp only [World.members, heq]
    cases hs : (w.lang w₀.langs).sorts s with
    | none => rfl
    | some r => simp only; rw [(hkey s r hs).1]
  · intro s
    simp only [World.domain, heq]
    cases hs : (w.lang w₀.langs).sorts s with
    | none => rfl
    | some r =>
      obtain ⟨h1, h2, h3⟩ := hkey s r hs
      simp only [h1, h2, h3, heq]

example : (World.run 5 World.empty [.new, .call 0 (.sort "A" none), .copy 0, .call 1 (.sort "B" (some (.name "A"))),
    .call 1 (.pred "p" [.name "A"]), .call 0 (.pred "q" [.name "A"]), .call 0 (.const "a" (.name "A"))]).map
    (fun w => (w.get 1 "B", w.get 0 "B", w.get 1 "p", w.get 0 "q", w.get 1 "q")) =
    some (.ok (.sort "B"), .error .undefinedVariable, .error .undefinedVariable, .ok (.pred "q" ["A"]),
      .error .undefinedVariable) := rfl

example : (World.run 5 World.empty [.new, .call 0 (.sort "A" none), .new, .call 0 (.const "a" (.name "A")),
    .call 1 (.const "a" (.name "object")), .call 1 (.pred "p" [.obj 0])]).map
    (fun w => (w.domain 0 "A", w.domain 0 "object", w.domain 1 "object", w.get 1 "p")) =
    some (.ok ["a"], .ok ["a"], .ok ["a"], .error .undefinedVariable) := by decide

/-! ### Constants become members -/

/-- The objects stay, with their members. -/
structure Grow (w w' : World) : Prop where
  objs : w.objs ≤ w'.objs
  dom : ∀ r, r < w.objs → ∀ c ∈ (w.obj r).dom, c ∈ (w'.obj r).dom

theorem Grow.refl (w : World) : Grow w w := ⟨Nat.le_refl _, fun _ _ _ h => h⟩

theorem Grow.trans {w w' w'' : World} (h : Grow w w') (h' : Grow w' w'') : Grow w w'' :=
  ⟨Nat.le_trans h.objs h'.objs, fun r hr c hc => h'.dom r (Nat.lt_of_lt_of_le hr h.objs) c (h.dom r hr c hc)⟩

theorem grow_of_eq {w w' : World} (h1 : w'.objs = w.objs) (h2 : w'.obj = w.obj) : Grow w w' :=
  ⟨Nat.le_of_eq h1.symm, fun r _ c hc => by rw [h2]; exact hc⟩

theorem grow_alloc {w w' : World} (o : SortObj) (h1 : w'.objs = w.objs + 1) (h2 : w'.obj = upd w.obj w.objs o) : Grow w w' :=
  ⟨by omega, fun r hr c hc => by rw [h2]; simp only [upd, Nat.ne_of_lt hr, if_false]; exact hc⟩

theorem addDom_grow (w : World) (r : Nat) (c : String) : Grow w (w.addDom r c) ∧ c ∈ ((w.addDom r c).obj r).dom := by
  refine ⟨⟨Nat.le_refl _, fun q _ d hd => ?_⟩, ?_⟩
  · simp only [World.addDom, upd]
    split
    · rename_i h
      subst h
      simp only
      split
      · exact hd
      · exact List.mem_cons_of_mem _ hd
    · exact hd
  · simp only [World.addDom, upd, if_true]
    split
    · assumption
    · exact List.mem_cons_self

theorem extend_grow (c : String) : ∀ (n : Nat) (w : World) (r : Nat) (w' : World) (e : Option Err),
    World.extend n w r c = some (w', e) → Grow w w' ∧ (r < w.objs → c ∈ (w'.obj r).dom) := by
  intro n
  induction n with
  | zero => intro w r w' e h; simp [World.extend] at h
  | succ n ih =>
    intro w r w' e h
    obtain ⟨a1, a2⟩ := addDom_grow w r c
    simp only [World.extend] at h
    split at h
    · simp only [Option.some.injEq, Prod.mk.injEq] at h
      rw [← h.1]
      exact ⟨a1, fun _ => a2⟩
    · rename_i l hl
      have hall : ∀ (l : List Nat) (v : World), extendEach (fun w p => World.extend n w p c) v l = some (w', e) → Grow v w' := by
        intro l
        induction l with
        | nil =>
          intro v h
          simp only [extendEach, Option.some.injEq, Prod.mk.injEq] at h
          rw [← h.1]
          exact Grow.refl _
        | cons p ps ihp =>
          intro v h
          simp only [extendEach] at h
          split at h
          · cases h
          · rename_i v' e' h1
            simp only [Option.some.injEq, Prod.mk.injEq] at h
            rw [← h.1]
            exact (ih _ _ _ _ h1).1
          · rename_i v' h1
            exact (ih _ _ _ _ h1).1.trans (ihp v' h)
      have hg := hall l _ h
      exact ⟨a1.trans hg, fun hr => hg.dom r hr c a2⟩

theorem setParent_objs {w w' : World} {n l r p : Nat} {e : Option Err} (h : w.setParent n l r p = some (w', e)) :
    w'.objs = w.objs ∧ w'.obj = w.obj := by
  unfold World.setParent at h
  split at h
  · cases h; exact ⟨rfl, rfl⟩
  · simp only at h
    split at h
    · cases h; exact ⟨rfl, rfl⟩
    · split at h
      · cases h
      · cases h; exact ⟨rfl, rfl⟩
      · cases h; exact ⟨rfl, rfl⟩

theorem call_grow {n : Nat} {w w' : World} {l : Nat} {c : LCall} {e : Option Err} (h : w.call n l c = some (w', e)) : Grow w w' := by
  cases c with
  | sort name parent =>
    simp only [World.call, World.declSort] at h
    split at h
    · cases h; exact Grow.refl _
    · split at h
      · cases h; exact Grow.refl _
      · obtain ⟨h1, h2⟩ := setParent_objs h
        exact grow_alloc ⟨name, l, []⟩ h1 h2
  | pred name args =>
    simp only [World.call, World.declPred, Option.some.injEq] at h
    split at h
    · cases h; exact Grow.refl _
    · split at h
      · cases h; exact Grow.refl _
      · split at h
        · cases h; exact grow_of_eq rfl rfl
        · cases h; exact Grow.refl _
  | func name args =>
    simp only [World.call, World.declFunc, Option.some.injEq] at h
    split at h
    · cases h; exact Grow.refl _
    · split at h
      · cases h; exact Grow.refl _
      · split at h
        · cases h; exact Grow.refl _
        · split at h
          · cases h; exact grow_of_eq rfl rfl
          · cases h; exact Grow.refl _
  | const name sort =>
    simp only [World.call, World.declConst] at h
    split at h
    · cases h; exact Grow.refl _
    · split at h
      · cases h; exact Grow.refl _
      · split at h
        · cases h
        · rename_i hx
          cases h; exact (extend_grow _ _ _ _ _ _ hx).1
        · rename_i hx
          cases h
          exact (extend_grow _ _ _ _ _ _ hx).1.trans (grow_of_eq rfl rfl)

theorem run_grow (n : Nat) : ∀ (ops : List WOp) (w w' : World), World.run n w ops = some w' → Grow w w'
  | [], w, w', h => by
    simp only [World.run, Option.some.injEq] at h
    rw [← h]; exact Grow.refl _
  | op :: ops, w, w', h => by
    simp only [World.run] at h
    split at h
    · cases h
    · rename_i v hv
      refine Grow.trans ?_ (run_grow n ops v w' h)
      cases op with
      | new => simp only [World.step, Option.some.injEq] at hv; rw [← hv]; exact grow_alloc _ rfl rfl
      | copy l =>
        simp only [World.step] at hv
        split at hv
        · cases hv; exact grow_alloc _ rfl rfl
        · cases hv
      | call l c =>
        simp only [World.step] at hv
        split at hv
        · obtain ⟨⟨v', e⟩, hc, hv'⟩ := Option.map_eq_some_iff.1 hv
          simp only at hv'
          subst hv'
          exact call_grow hc
        · cases hv

/-- C103: whatever a program does with its languages, no sort of any of them ever loses a member. -/
theorem C103_members_kept (n : Nat) (w w' : World) (ops : List WOp) (l : Nat) (s : String) (ms : List String) (hw : Reached n w)
    (hl : l < w.langs) (h : World.run n w ops = some w') (hs : w.members l s = .ok ms) :
    ∃ ms', w'.members l s = .ok ms' ∧ ∀ c ∈ ms, c ∈ ms' := by
  unfold World.members at hs
  split at hs
  · cases hs
  · rename_i r hr
    cases hs
    obtain ⟨_, hst, _⟩ := run_valid n ops w w' hw.valid h
    have hg := run_grow n ops w w' h
    have hlt := hw.valid.refs l hl r ⟨Or.inl ⟨s, hr⟩⟩
    exact ⟨(w'.obj r).dom, by simp [World.members, hst.sorts l hl s r hr], hg.dom r hlt⟩

/-- C103: a constant that is declared, by a call with the name of its sort, is a member of the sort. -/
theorem C103_const_member (n : Nat) (w w' : World) (l : Nat) (c s : String) (hw : Reached n w) (hl : l < w.langs)
    (h : w.call n l (.const c (.name s)) = some (w', none)) : ∃ ms, w'.members l s = .ok ms ∧ c ∈ ms := by
  have hv := step_valid n w w' (.call l (.const c (.name s))) hw.valid (by simp [World.step, hl, h])
  simp only [World.call, World.declConst] at h
  split at h
  · cases h
  · rename_i r hr
    have hs : (w.lang l).sorts s = some r := by
      simp only [World.retrieve] at hr
      split at hr
      · cases hr
      · rename_i q hq
        cases hr; exact hq
    have hlt := hw.valid.refs l hl r ⟨Or.inl ⟨s, hs⟩⟩
    split at h
    · cases h
    · split at h
      · cases h
      · cases h
      · rename_i v hx
        have hm := (extend_grow _ _ _ _ _ _ hx).2 hlt
        have hs' := hv.2.1.sorts l hl s r hs
        refine ⟨(w'.obj r).dom, by simp [World.members, hs'], ?_⟩
        cases h
        exact hm

example : ((World.empty.newLang.call 5 0 (.const "c" (.name "object"))).map fun r => (r.1.members 0 "object", r.2)) = some (.ok ["c"], none) := by
  decide

end Tarski

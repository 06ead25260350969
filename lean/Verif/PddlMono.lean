import Verif.PddlEffSpec
import Verif.PddlInitSpec
/-! Lemmas: what is expressible over a language stays so when constants are added and bounds are widened. -/
namespace Tarski

/-- `L'` has the symbols and sorts of `L`, and at least its constants and values. -/
structure RLang.Ext (L L' : RLang) : Prop where
  preds : L'.preds = L.preds
  funs : L'.funs = L.funs
  consts : ∀ n s, L.consts n = some s → L'.consts n = some s
  hasSort : L'.hasSort = L.hasSort
  isSub : L'.isSub = L.isSub
  castInt : ∀ s n v, L.castInt s n = .ok v → L'.castInt s n = .ok v
  equality : L'.equality = L.equality
  arithmetic : L'.arithmetic = L.arithmetic
  special : L'.special = L.special

variable {L L' : RLang} (h : L.Ext L') {real : String → Bool}
include h

theorem RLang.Ext.sortOf : ∀ t : Term, L'.sortOf t = L.sortOf t
  | .var v => by simp [RLang.sortOf]
  | .const _ s => by simp [RLang.sortOf]
  | .app f ts => by simp [RLang.sortOf, h.funs]
  | .ite c t e => by simp [RLang.sortOf, RLang.Ext.sortOf t]

theorem NumIn.mono {s : String} {t : Term} (hn : NumIn L real s t) : NumIn L' real s t := by
  obtain ⟨n, h1, h2, h3⟩ := hn
  exact ⟨n, h1, h.castInt _ _ _ h2, h3⟩

mutual
theorem OkT.mono : ∀ (t : Term) {sc : List Var}, OkT L real sc t → OkT L' real sc t
  | .var v, sc, ht => by simpa [OkT] using ht
  | .const n srt, sc, ht => by
    cases n with
    | str s => simp only [OkT] at ht ⊢; exact ⟨ht.1, h.consts _ _ ht.2⟩
    | int n => simp only [OkT] at ht
    | pyNone => simp only [OkT] at ht
  | .app f ts, sc, ht => by
    simp only [OkT] at ht ⊢
    rcases ht with ⟨h1, h2, h3⟩ | ⟨h1, h2, h3⟩ | ⟨h1, ss, c, h2, h3⟩
    · exact .inl ⟨h1, h.arithmetic ▸ h2, OkTwo.mono ts h3⟩
    · exact .inr (.inl ⟨h1, h.special ▸ h2, OkTwo.mono ts h3⟩)
    · exact .inr (.inr ⟨h1, ss, c, h.funs ▸ h2, OkArgs.mono ts ss h3⟩)
  | .ite c t e, sc, ht => by simp [OkT] at ht
theorem OkArgs.mono : ∀ (ts : List Term) (ss : List String) {sc : List Var}, OkArgs L real sc ts ss → OkArgs L' real sc ts ss
  | [], [], sc, ht => by simp [OkArgs]
  | [], s :: ss, sc, ht => by simp [OkArgs] at ht
  | t :: ts, [], sc, ht => by simp [OkArgs] at ht
  | t :: ts, s :: ss, sc, ht => by
    simp only [OkArgs] at ht ⊢
    refine ⟨?_, OkArgs.mono ts ss ht.2⟩
    rcases ht.1 with h1 | h1
    · exact .inl ⟨OkT.mono t h1.1, by rw [h.isSub, h.sortOf]; exact h1.2⟩
    · exact .inr (NumIn.mono h h1)
theorem OkTwo.mono : ∀ (ts : List Term) {sc : List Var} {top : String}, OkTwo L real sc top ts → OkTwo L' real sc top ts
  | [], sc, top, ht => by simp [OkTwo] at ht
  | [a], sc, top, ht => by simp [OkTwo] at ht
  | [a, b], sc, top, ht => by
    simp only [OkTwo] at ht ⊢
    rw [h.isSub, h.sortOf, h.sortOf]
    refine ⟨?_, ht.2⟩
    rcases ht.1 with h1 | h1 | h1 | h1
    · exact .inl ⟨OkT.mono a h1.1, OkT.mono b h1.2⟩
    · exact .inr (.inl ⟨OkT.mono a h1.1, NumIn.mono h h1.2⟩)
    · exact .inr (.inr (.inl ⟨NumIn.mono h h1.1, OkT.mono b h1.2⟩))
    · exact .inr (.inr (.inr ⟨NumIn.mono h h1.1, NumIn.mono h h1.2.1, by rw [h.hasSort]; exact h1.2.2⟩))
  | a :: b :: c :: l, sc, top, ht => by simp [OkTwo] at ht
end

theorem OkAtom.mono : ∀ (ts : List Term) (ss : List String) {sc : List Var}, OkAtom L real sc ts ss → OkAtom L' real sc ts ss
  | [], [], sc, ht => by simp [OkAtom]
  | [], s :: ss, sc, ht => by simp [OkAtom] at ht
  | t :: ts, [], sc, ht => by simp [OkAtom] at ht
  | t :: ts, s :: ss, sc, ht => by
    simp only [OkAtom] at ht ⊢
    exact ⟨OkT.mono h t ht.1, by rw [h.isSub, h.sortOf]; exact ht.2.1, OkAtom.mono ts ss ht.2.2⟩

theorem OkDecl.mono {sc vs : List Var} (hd : OkDecl L sc vs) : OkDecl L' sc vs :=
  ⟨fun v hv => ⟨(hd.1 v hv).1, (hd.1 v hv).2.1, by rw [h.hasSort]; exact (hd.1 v hv).2.2⟩, hd.2⟩

mutual
theorem OkF.mono : ∀ (f : Formula) {sc : List Var}, OkF L real sc f → OkF L' real sc f
  | .top, sc, hf => by simp [OkF]
  | .bot, sc, hf => by
    simp only [OkF] at hf ⊢
    rw [h.equality, h.hasSort, h.isSub]
    exact ⟨hf.1, hf.2.1, hf.2.2.1, h.castInt _ _ _ hf.2.2.2.1, h.castInt _ _ _ hf.2.2.2.2⟩
  | .atom p ts, sc, hf => by
    cases p with
    | user p =>
      simp only [OkF] at hf ⊢
      obtain ⟨h1, ss, h2, h3⟩ := hf
      exact ⟨h1, ss, h.preds ▸ h2, OkAtom.mono h ts ss h3⟩
    | cmp c =>
      cases c <;> simp only [OkF] at hf ⊢ <;> first
        | exact ⟨h.equality ▸ hf.1, OkTwo.mono h ts hf.2⟩
        | exact ⟨h.arithmetic ▸ hf.1, OkTwo.mono h ts hf.2⟩
  | .comp k c fs, sc, hf => by
    cases c <;> simp only [OkF] at hf ⊢ <;> exact ⟨hf.1, OkFs.mono fs hf.2⟩
  | .quant q vs f, sc, hf => by
    simp only [OkF] at hf ⊢
    obtain ⟨us, h1, h2, h3, h4⟩ := hf
    exact ⟨us, h1, h2, OkDecl.mono h h3, OkF.mono f h4⟩
theorem OkFs.mono : ∀ (fs : List Formula) {sc : List Var}, OkFs L real sc fs → OkFs L' real sc fs
  | [], sc, hf => by simp [OkFs]
  | f :: fs, sc, hf => by
    simp only [OkFs] at hf ⊢
    exact ⟨OkF.mono f hf.1, OkFs.mono fs hf.2⟩
end

mutual
theorem OkE.mono : ∀ (e : Effect) {sc : List Var}, OkE L real sc e → OkE L' real sc e
  | .add c p ts, sc, he => by
    cases p with
    | user p =>
      simp only [OkE] at he ⊢
      obtain ⟨h0, h1, ss, h2, h3⟩ := he
      exact ⟨OkF.mono h c h0, h1, ss, h.preds ▸ h2, OkAtom.mono h ts ss h3⟩
    | cmp _ => simp [OkE] at he
  | .del c p ts, sc, he => by
    cases p with
    | user p =>
      simp only [OkE] at he ⊢
      obtain ⟨h0, h1, ss, h2, h3⟩ := he
      exact ⟨OkF.mono h c h0, h1, ss, h.preds ▸ h2, OkAtom.mono h ts ss h3⟩
    | cmp _ => simp [OkE] at he
  | .lit c l, sc, he => by simp [OkE] at he
  | .assign c f ts r, sc, he => by
    simp only [OkE] at he ⊢
    obtain ⟨h0, h1, ss, s, h2, h3, h4⟩ := he
    refine ⟨OkF.mono h c h0, h1, ss, s, h.funs ▸ h2, OkArgs.mono h ts ss h3, ?_⟩
    rcases h4 with h4 | h4
    · exact .inl (OkT.mono h r h4)
    · exact .inr (NumIn.mono h h4)
  | .univ c vs es, sc, he => by
    simp only [OkE] at he ⊢
    exact ⟨he.1, OkDecl.mono h he.2.1, OkEs.mono es he.2.2⟩
theorem OkEs.mono : ∀ (es : List Effect) {sc : List Var}, OkEs L real sc es → OkEs L' real sc es
  | [], sc, he => by simp [OkEs]
  | e :: es, sc, he => by
    simp only [OkEs] at he ⊢
    exact ⟨OkE.mono e he.1, OkEs.mono es he.2⟩
end

theorem OkAction.mono {a : PAction} (ha : OkAction L real a) : OkAction L' real a where
  name := ha.name
  params := OkDecl.mono h ha.params
  pre := OkF.mono h _ ha.pre
  effs := OkEs.mono h _ ha.effs
  plain := ha.plain
  cost := by
    have := ha.cost
    cases hc : a.cost with
    | none => simp [OkCost]
    | some t =>
      rw [hc] at this
      obtain ⟨h1, s, h2, h3, h4⟩ := this
      refine ⟨h.arithmetic ▸ h1, s, h.funs ▸ h2, by rw [h.isSub]; exact h3, ?_⟩
      rcases h4 with h4 | h4
      · exact .inl ⟨OkT.mono h t h4.1, by rw [h.isSub, h.sortOf]; exact h4.2⟩
      · exact .inr (NumIn.mono h h4)

theorem ConOk.mono {M M' : MLang} (hi : M'.interval = M.interval) {s : String} {c : Const} (hc : ConOk M L s c) :
    ConOk M' L' s c := by
  rcases hc with ⟨n, h1, h2, h3⟩ | ⟨n, h1, h2, h3, h4⟩
  · exact .inl ⟨n, h1, h2, h.consts _ _ h3⟩
  · exact .inr ⟨n, h1, h2, by rw [hi]; exact h3, h.castInt _ _ _ h4⟩

theorem AtomExpressible.mono {M M' : MLang} (hi : M'.interval = M.interval) {p : String} {pt : List Const}
    (hp : AtomExpressible M L p pt) : AtomExpressible M' L' p pt := by
  obtain ⟨h1, ss, h2, h3⟩ := hp
  exact ⟨h1, ss, h.preds ▸ h2, h3.imp (fun _ _ hc => ⟨ConOk.mono h hi hc.1, by rw [h.isSub]; exact hc.2⟩)⟩

theorem ValueExpressible.mono {M M' : MLang} (hi : M'.interval = M.interval) {f : String} {pt : List Const} {v : Const}
    (hv : ValueExpressible M L f pt v) : ValueExpressible M' L' f pt v := by
  obtain ⟨h1, ss, s, h2, h3, h4, h5⟩ := hv
  exact ⟨h1, ss, s, h.funs ▸ h2, h3.imp (fun _ _ hc => ⟨ConOk.mono h hi hc.1, hc.2⟩), ConOk.mono h hi h4,
    by rw [h.isSub]; exact h5⟩

end Tarski

import Verif.NNF
import Verif.Shapes
/-! Helper lemmas on the NNF transformation. -/
namespace Tarski

theorem nnfs_ok_nil {b gs} (h : nnfs b [] = .ok gs) : gs = [] := by
  simp [nnfs] at h; exact h

theorem nnfs_ok_cons {b f fs gs} (h : nnfs b (f :: fs) = .ok gs) :
    ∃ g gs', gs = g :: gs' ∧ nnf b f = .ok g ∧ nnfs b fs = .ok gs' := by
  rw [nnfs] at h
  split at h
  · cases h
  · rename_i g hg
    split at h
    · cases h
    · rename_i gs' hgs
      cases h
      exact ⟨g, gs', rfl, hg, hgs⟩

theorem nnf_quant_ok {b q vs f g} (h : nnf b (.quant q vs f) = .ok g) :
    ∃ g', nnf b f = .ok g' ∧ g = .quant (if b then negateQuantifier q else q) vs g' := by
  rw [nnf] at h
  split at h
  · rename_i g' hg; cases h; exact ⟨g', hg, rfl⟩
  · cases h

theorem nnf_not_ok {b k fs g} (h : nnf b (.comp k .not fs) = .ok g) :
    ∃ f, fs = [f] ∧ nnf (!b) f = .ok g := by
  match fs, h with
  | [f], h => exact ⟨f, rfl, by simpa [nnf] using h⟩
  | [], h => simp [nnf] at h
  | _ :: _ :: _, h => simp [nnf] at h

theorem nnf_and_ok {b k fs g} (h : nnf b (.comp k .and fs) = .ok g) :
    ∃ gs, nnfs b fs = .ok gs ∧ g = .comp .tuple (if b then .or else .and) gs := by
  rw [nnf] at h
  split at h
  · rename_i gs hgs; cases h; exact ⟨gs, hgs, rfl⟩
  · cases h

theorem nnf_or_ok {b k fs g} (h : nnf b (.comp k .or fs) = .ok g) :
    ∃ gs, nnfs b fs = .ok gs ∧ g = .comp .tuple (if b then .and else .or) gs := by
  rw [nnf] at h
  split at h
  · rename_i gs hgs; cases h; exact ⟨gs, hgs, rfl⟩
  · cases h

/-- What a result `g` of converting `f` with flag `b` denotes. -/
def NegIf (b : Bool) (p : Prop) : Prop := if b then ¬ p else p

mutual
theorem nnf_sound (b : Bool) (f g : Formula) (h : nnf b f = .ok g) {D} (I : Interp D) (σ : Asg D) :
    Sat I g σ ↔ NegIf b (Sat I f σ) := by
  match f with
  | .top => cases b <;> simp [nnf] at h; subst h; simp [NegIf]
  | .bot => cases b <;> simp [nnf] at h; subst h; simp [NegIf]
  | .atom p ts =>
    cases b <;> simp [nnf] at h <;> subst h <;> simp [NegIf, neg, Sat, SatAll]
  | .quant q vs f =>
    obtain ⟨g', hg, rfl⟩ := nnf_quant_ok h
    have ih := fun σ => nnf_sound b f g' hg I σ
    cases b
    · simp only [Sat, NegIf] at ih ⊢
      exact quantBlock_congr I q vs ih σ
    · simp only [Sat, NegIf, if_true] at ih ⊢
      rw [quantBlock_neg]
      exact quantBlock_congr I _ vs ih σ
  | .comp k .not fs =>
    obtain ⟨f', rfl, hg⟩ := nnf_not_ok h
    have ih := nnf_sound (!b) f' g hg I σ
    rw [ih]
    cases b <;> simp [NegIf, Sat, SatAll]
  | .comp k .and fs =>
    obtain ⟨gs, hgs, rfl⟩ := nnf_and_ok h
    have ih := nnfs_sound b fs gs hgs I σ
    cases b
    · simp only [NegIf, Bool.false_eq_true, if_false, Sat] at ih ⊢; exact ih.1
    · simp only [NegIf, Sat, if_true] at ih ⊢; simpa using ih.2
  | .comp k .or fs =>
    obtain ⟨gs, hgs, rfl⟩ := nnf_or_ok h
    have ih := nnfs_sound b fs gs hgs I σ
    cases b
    · simp only [NegIf, Bool.false_eq_true, if_false, Sat] at ih ⊢; exact ih.2
    · simp only [NegIf, Sat, if_true] at ih ⊢; simpa using ih.1
theorem nnfs_sound (b : Bool) (fs gs : List Formula) (h : nnfs b fs = .ok gs) {D} (I : Interp D) (σ : Asg D) :
    (if b then (SatAll I gs σ ↔ ¬ SatAny I fs σ) else (SatAll I gs σ ↔ SatAll I fs σ)) ∧
    (if b then (SatAny I gs σ ↔ ¬ SatAll I fs σ) else (SatAny I gs σ ↔ SatAny I fs σ)) := by
  match fs with
  | [] => cases nnfs_ok_nil h; cases b <;> simp [SatAll, SatAny]
  | f :: fs =>
    obtain ⟨g, gs', rfl, hg, hgs⟩ := nnfs_ok_cons h
    have ih1 := nnf_sound b f g hg I σ
    have ih2 := nnfs_sound b fs gs' hgs I σ
    cases b
    · simp only [NegIf, Bool.false_eq_true, if_false] at ih1 ih2 ⊢
      simp only [SatAll, SatAny, ih1, ih2.1, ih2.2, and_self]
    · simp only [NegIf, if_true] at ih1 ih2 ⊢
      simp only [SatAll, SatAny, ih1, ih2.1, ih2.2]
      refine ⟨?_, ?_⟩
      · simp
      · exact Classical.not_and_iff_not_or_not.symm
end

mutual
theorem nnf_shape (b : Bool) (f g : Formula) (h : nnf b f = .ok g) : IsNNF g := by
  match f with
  | .top => cases b <;> simp [nnf] at h; subst h; exact .top
  | .bot => cases b <;> simp [nnf] at h; subst h; exact .bot
  | .atom p ts =>
    cases b <;> simp [nnf] at h <;> subst h
    · exact .atom _ _
    · exact .negAtom _ _ _
  | .quant q vs f =>
    obtain ⟨g', hg, rfl⟩ := nnf_quant_ok h
    exact .quant _ _ _ (nnf_shape b f g' hg)
  | .comp k .not fs =>
    obtain ⟨f', rfl, hg⟩ := nnf_not_ok h
    exact nnf_shape (!b) f' g hg
  | .comp k .and fs =>
    obtain ⟨gs, hgs, rfl⟩ := nnf_and_ok h
    exact .andor _ _ _ (by cases b <;> simp) (nnfs_shape b fs gs hgs)
  | .comp k .or fs =>
    obtain ⟨gs, hgs, rfl⟩ := nnf_or_ok h
    exact .andor _ _ _ (by cases b <;> simp) (nnfs_shape b fs gs hgs)
theorem nnfs_shape (b : Bool) (fs gs : List Formula) (h : nnfs b fs = .ok gs) : ∀ g ∈ gs, IsNNF g := by
  match fs with
  | [] => cases nnfs_ok_nil h; simp
  | f :: fs =>
    obtain ⟨g, gs', rfl, hg, hgs⟩ := nnfs_ok_cons h
    have h1 := nnf_shape b f g hg
    have h2 := nnfs_shape b fs gs' hgs
    simpa using ⟨h1, h2⟩
end

mutual
theorem nnf_idem (b : Bool) (f g : Formula) (h : nnf b f = .ok g) : nnf false g = .ok g := by
  match f with
  | .top => cases b <;> simp [nnf] at h; subst h; simp [nnf]
  | .bot => cases b <;> simp [nnf] at h; subst h; simp [nnf]
  | .atom p ts =>
    cases b <;> simp [nnf] at h <;> subst h <;> simp [nnf, neg]
  | .quant q vs f =>
    obtain ⟨g', hg, rfl⟩ := nnf_quant_ok h
    simp [nnf, nnf_idem b f g' hg]
  | .comp k .not fs =>
    obtain ⟨f', rfl, hg⟩ := nnf_not_ok h
    exact nnf_idem (!b) f' g hg
  | .comp k .and fs =>
    obtain ⟨gs, hgs, rfl⟩ := nnf_and_ok h
    cases b <;> simp [nnf, nnfs_idem _ fs gs hgs]
  | .comp k .or fs =>
    obtain ⟨gs, hgs, rfl⟩ := nnf_or_ok h
    cases b <;> simp [nnf, nnfs_idem _ fs gs hgs]
theorem nnfs_idem (b : Bool) (fs gs : List Formula) (h : nnfs b fs = .ok gs) : nnfs false gs = .ok gs := by
  match fs with
  | [] => cases nnfs_ok_nil h; simp [nnfs]
  | f :: fs =>
    obtain ⟨g, gs', rfl, hg, hgs⟩ := nnfs_ok_cons h
    simp [nnfs, nnf_idem b f g hg, nnfs_idem b fs gs' hgs]
end

mutual
theorem nnf_atomCount (b : Bool) (f g : Formula) (h : nnf b f = .ok g) : atomCount g = atomCount f := by
  match f with
  | .top => cases b <;> simp [nnf] at h; subst h; simp
  | .bot => cases b <;> simp [nnf] at h; subst h; simp
  | .atom p ts =>
    cases b <;> simp [nnf] at h <;> subst h <;> simp [neg, atomCount, atomCounts]
  | .quant q vs f =>
    obtain ⟨g', hg, rfl⟩ := nnf_quant_ok h
    simp [atomCount, nnf_atomCount b f g' hg]
  | .comp k .not fs =>
    obtain ⟨f', rfl, hg⟩ := nnf_not_ok h
    simpa [atomCount, atomCounts] using nnf_atomCount (!b) f' g hg
  | .comp k .and fs =>
    obtain ⟨gs, hgs, rfl⟩ := nnf_and_ok h
    simp [atomCount, nnfs_atomCount _ fs gs hgs]
  | .comp k .or fs =>
    obtain ⟨gs, hgs, rfl⟩ := nnf_or_ok h
    simp [atomCount, nnfs_atomCount _ fs gs hgs]
theorem nnfs_atomCount (b : Bool) (fs gs : List Formula) (h : nnfs b fs = .ok gs) :
    atomCounts gs = atomCounts fs ∧ gs.length = fs.length := by
  match fs with
  | [] => cases nnfs_ok_nil h; simp
  | f :: fs =>
    obtain ⟨g, gs', rfl, hg, hgs⟩ := nnfs_ok_cons h
    have := nnfs_atomCount b fs gs' hgs
    simp [atomCounts, nnf_atomCount b f g hg, this.1, this.2]
end

theorem nnfs_exists {b fs} : (∃ gs, nnfs b fs = .ok gs) ↔ ∀ f ∈ fs, ∃ g, nnf b f = .ok g := by
  induction fs with
  | nil => simp [nnfs]
  | cons f fs ih =>
    simp only [List.mem_cons, forall_eq_or_imp, ← ih]
    constructor
    · rintro ⟨gs, h⟩
      obtain ⟨g, gs', _, hg, hgs⟩ := nnfs_ok_cons h
      exact ⟨⟨g, hg⟩, ⟨gs', hgs⟩⟩
    · rintro ⟨⟨g, hg⟩, ⟨gs', hgs⟩⟩
      exact ⟨g :: gs', by simp [nnfs, hg, hgs]⟩

theorem nnf_exists {f} (hf : WF f) : ∀ b b', b' = !b → ((∃ g, nnf b f = .ok g) ↔ ¬ ConstAt b' f) := by
  induction hf with
  | top =>
    intro b b' hb; subst hb; cases b
    · simp [nnf]; intro h; cases h
    · simp [nnf]; exact .top
  | bot =>
    intro b b' hb; subst hb; cases b
    · simp [nnf]; intro h; cases h
    · simp [nnf]; exact .bot
  | atom p ts => intro b b' hb; simp [nnf]; intro h; cases h
  | not k f _ ih =>
    intro b b' hb
    have : (∃ g, nnf b (.comp k .not [f]) = .ok g) ↔ ∃ g, nnf (!b) f = .ok g := by simp [nnf]
    rw [this, ih (!b) (!b') (by simp [hb])]
    constructor
    · intro h hc; apply h
      cases hc with
      | not b1 _ _ _ hb1 hc => simpa [hb1] using hc
      | andor _ _ _ _ _ h _ => exact absurd rfl h
    · intro h hc; apply h
      exact ConstAt.not _ _ k _ (by simp) hc
  | andor k c fs hc _ _ ih =>
    intro b b' hb
    have : (∃ g, nnf b (.comp k c fs) = .ok g) ↔ ∃ gs, nnfs b fs = .ok gs := by
      cases c with
      | and =>
        constructor
        · rintro ⟨g, hg⟩; obtain ⟨gs, h, _⟩ := nnf_and_ok hg; exact ⟨gs, h⟩
        · rintro ⟨gs, h⟩; simp [nnf, h]
      | or =>
        constructor
        · rintro ⟨g, hg⟩; obtain ⟨gs, h, _⟩ := nnf_or_ok hg; exact ⟨gs, h⟩
        · rintro ⟨gs, h⟩; simp [nnf, h]
      | not => exact absurd rfl hc
    rw [this, nnfs_exists]
    constructor
    · intro h hc'
      cases hc' with
      | not => exact absurd rfl hc
      | andor _ _ _ _ f _ hm hcf => exact (ih f hm b b' hb).mp (h f hm) hcf
    · intro h f hf
      exact (ih f hf b b' hb).mpr (fun hcf => h (.andor _ _ _ _ f hc hf hcf))
  | quant q vs f _ _ _ ih =>
    intro b b' hb
    have : (∃ g, nnf b (.quant q vs f) = .ok g) ↔ ∃ g, nnf b f = .ok g := by
      constructor
      · rintro ⟨g, hg⟩; obtain ⟨g', h, _⟩ := nnf_quant_ok hg; exact ⟨g', h⟩
      · rintro ⟨g, hg⟩; simp [nnf, hg]
    rw [this, ih b b' hb]
    constructor
    · intro h hc; apply h; cases hc; assumption
    · intro h hc; exact h (.quant _ _ _ _ hc)

end Tarski

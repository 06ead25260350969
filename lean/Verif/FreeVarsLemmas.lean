import Verif.FreeVars
/-! Helper lemmas for C15. -/
namespace Tarski

theorem mem_setAdd {α} [DecidableEq α] {l : List α} {x y : α} : y ∈ setAdd l x ↔ y = x ∨ y ∈ l := by
  unfold setAdd; split
  · constructor
    · exact Or.inr
    · rintro (rfl | h)
      · assumption
      · exact h
  · simp

theorem nodup_setAdd {α} [DecidableEq α] {l : List α} {x : α} (h : l.Nodup) : (setAdd l x).Nodup := by
  unfold setAdd; split
  · exact h
  · exact List.nodup_cons.mpr ⟨by assumption, h⟩

theorem mem_addAll {b vs : List Term} {x} : x ∈ addAll b vs ↔ x ∈ b ∨ x ∈ vs := by
  unfold addAll
  induction vs generalizing b with
  | nil => simp
  | cons v vs ih => simp only [List.foldl_cons, ih, mem_setAdd, List.mem_cons]; grind

theorem nodup_addAll {b vs : List Term} (h : b.Nodup) : (addAll b vs).Nodup := by
  unfold addAll
  induction vs generalizing b with
  | nil => exact h
  | cons v vs ih => exact ih (nodup_setAdd h)

theorem removeAll_ok {b vs : List Term} (hb : b.Nodup) (hv : vs.Nodup) (hs : ∀ x ∈ vs, x ∈ b) :
    ∃ b', removeAll b vs = .ok b' ∧ b'.Nodup ∧ ∀ x, x ∈ b' ↔ x ∈ b ∧ x ∉ vs := by
  induction vs generalizing b with
  | nil => exact ⟨b, rfl, hb, by simp⟩
  | cons v vs ih =>
    rw [List.nodup_cons] at hv
    have hvb := hs v (by simp)
    obtain ⟨b', h1, h2, h3⟩ := ih (b := b.erase v) (hb.erase v) hv.2 (by
      intro x hx
      rw [hb.mem_erase_iff]
      refine ⟨?_, hs x (by simp [hx])⟩
      rintro rfl; exact hv.1 hx)
    refine ⟨b', by simp [removeAll, setRemove, hvb, h1], h2, fun x => ?_⟩
    rw [h3, hb.mem_erase_iff]
    simp only [List.mem_cons]; grind

mutual
theorem fvT_spec (t : Term) (ht : NoIteT t) (s : FVState) (hn : s.free.Nodup) :
    (fvT t s).bound = s.bound ∧ (fvT t s).free.Nodup ∧
    ∀ v, v ∈ (fvT t s).free ↔ v ∈ s.free ∨ (FreeT v t ∧ Term.var v ∉ s.bound) := by
  match t with
  | .var w =>
    simp only [fvT]; split
    · refine ⟨rfl, hn, fun v => ?_⟩
      simp only [FreeT]; grind
    · refine ⟨rfl, nodup_setAdd hn, fun v => ?_⟩
      simp only [FreeT, mem_setAdd]; grind
  | .const n so => simp [fvT, FreeT, hn]
  | .app f ts => simpa only [fvT, FreeT] using fvTs_spec ts ht s hn
  | .ite c a b => exact absurd ht (by simp [NoIteT])
theorem fvTs_spec (ts : List Term) (ht : NoIteTs ts) (s : FVState) (hn : s.free.Nodup) :
    (fvTs ts s).bound = s.bound ∧ (fvTs ts s).free.Nodup ∧
    ∀ v, v ∈ (fvTs ts s).free ↔ v ∈ s.free ∨ (FreeTs v ts ∧ Term.var v ∉ s.bound) := by
  match ts with
  | [] => simp [fvTs, FreeTs, hn]
  | t :: ts =>
    obtain ⟨h1, h2, h3⟩ := fvT_spec t ht.1 s hn
    obtain ⟨h4, h5, h6⟩ := fvTs_spec ts ht.2 (fvT t s) h2
    refine ⟨by simp only [fvTs, h4, h1], by simpa only [fvTs] using h5, fun v => ?_⟩
    simp only [fvTs, h6, h3, h1, FreeTs]; grind
end

mutual
theorem fvF_spec (f : Formula) (hi : NoIteF f) (hr : NoRebind f) (s : FVState) (hn : s.free.Nodup)
    (hb : s.bound.Nodup) (hd : ∀ t ∈ s.bound, ∀ v, t = Term.var v → ¬ BoundF v f)
    (hvb : VarBindersF f) :
    ∃ s', fvF f s = .ok s' ∧ s'.free.Nodup ∧ s'.bound.Nodup ∧ (∀ x, x ∈ s'.bound ↔ x ∈ s.bound) ∧
    ∀ v, v ∈ s'.free ↔ v ∈ s.free ∨ (FreeF v f ∧ Term.var v ∉ s.bound) := by
  match f with
  | .top => exact ⟨s, rfl, hn, hb, by simp, by simp [FreeF]⟩
  | .bot => exact ⟨s, rfl, hn, hb, by simp, by simp [FreeF]⟩
  | .atom p ts =>
    obtain ⟨h1, h2, h3⟩ := fvTs_spec ts hi s hn
    exact ⟨_, rfl, h2, by rw [h1]; exact hb, by rw [h1]; simp, by simpa only [FreeF] using h3⟩
  | .comp k c fs =>
    simpa only [fvF, FreeF] using fvFs_spec fs hi hr s hn hb hd hvb
  | .quant q vs f =>
    have hbn : (addAll s.bound vs).Nodup := nodup_addAll hb
    obtain ⟨s1, h1, h2, h3, h4, h5⟩ := fvF_spec f hi hr.2.2 ⟨addAll s.bound vs, s.free⟩ hn hbn
      (by
        intro t ht v hv
        rcases mem_addAll.mp ht with h | h
        · intro hbf; exact hd t h v hv (Or.inr hbf)
        · subst hv; exact hr.2.1 v h) hvb.2
    obtain ⟨b', h6, h7, h8⟩ := removeAll_ok (b := s1.bound) (vs := vs) h3 hr.1 (by
      intro x hx; rw [h4]; exact mem_addAll.mpr (Or.inr hx))
    refine ⟨⟨b', s1.free⟩, by simp [fvF, h1, h6], h2, h7, fun x => ?_, fun v => ?_⟩
    · simp only [h8, h4, mem_addAll]
      constructor
      · grind
      · intro hx
        refine ⟨Or.inl hx, fun hxv => ?_⟩
        obtain ⟨v, rfl⟩ := hvb.1 x hxv
        exact hd _ hx v rfl (Or.inl hxv)
    · simp only [h5, FreeF, mem_addAll]; grind
theorem fvFs_spec (fs : List Formula) (hi : NoIteFs fs) (hr : NoRebinds fs) (s : FVState) (hn : s.free.Nodup)
    (hb : s.bound.Nodup) (hd : ∀ t ∈ s.bound, ∀ v, t = Term.var v → ¬ BoundFs v fs)
    (hvb : VarBindersFs fs) :
    ∃ s', fvFs fs s = .ok s' ∧ s'.free.Nodup ∧ s'.bound.Nodup ∧ (∀ x, x ∈ s'.bound ↔ x ∈ s.bound) ∧
    ∀ v, v ∈ s'.free ↔ v ∈ s.free ∨ (FreeFs v fs ∧ Term.var v ∉ s.bound) := by
  match fs with
  | [] => exact ⟨s, rfl, hn, hb, by simp, by simp [FreeFs]⟩
  | f :: fs =>
    obtain ⟨s1, h1, h2, h3, h4, h5⟩ := fvF_spec f hi.1 hr.1 s hn hb
      (fun t ht v hv h => hd t ht v hv (Or.inl h)) hvb.1
    obtain ⟨s2, g1, g2, g3, g4, g5⟩ := fvFs_spec fs hi.2 hr.2 s1 h2 h3
      (fun t ht v hv h => hd t ((h4 t).mp ht) v hv (Or.inr h)) hvb.2
    refine ⟨s2, by simp [fvFs, h1, g1], g2, g3, fun x => by rw [g4, h4], fun v => ?_⟩
    simp only [g5, h5, FreeFs, h4]; grind
end

end Tarski

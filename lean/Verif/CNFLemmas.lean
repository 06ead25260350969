import Verif.CNF
import Verif.NNFLemmas
/-! Helper lemmas on the CNF transformation. -/
namespace Tarski

inductive ClauseB : Formula → Prop where
  | lit f : IsLiteral f → ClauseB f
  | or a b : ClauseB a → ClauseB b → ClauseB (.comp .tuple .or [a, b])

inductive CNFB : Formula → Prop where
  | clause f : ClauseB f → CNFB f
  | and a b : CNFB a → CNFB b → CNFB (.comp .tuple .and [a, b])

theorem ClauseB.isClause {f} (h : ClauseB f) : IsClause f := by
  induction h with
  | lit f h => exact .lit f h
  | or a b _ _ iha ihb => exact .or _ _ (by simp [iha, ihb])

theorem CNFB.isCNF {f} (h : CNFB f) : IsCNF f := by
  induction h with
  | clause f h => exact .clause f h.isClause
  | and a b _ _ iha ihb => exact .and _ _ (by simp [iha, ihb])

theorem ClauseB.not_and {f} (h : ClauseB f) : ∀ k fs, f ≠ .comp k .and fs := by
  intro k fs he
  subst he
  cases h with
  | lit _ h => cases h

theorem distributeR_clause (n1 : Formula) {n2} (h : ClauseB n2) :
    distributeR n1 n2 = .comp .tuple .or [n1, n2] := by
  have hn := h.not_and
  cases n2 with
  | comp k c fs =>
    cases c with
    | and => exact absurd rfl (hn k fs)
    | or => simp [distributeR]
    | not => simp [distributeR]
  | _ => simp [distributeR]

theorem distribute_clause {n1 : Formula} (h : ClauseB n1) (n2) :
    distribute n1 n2 = distributeR n1 n2 := by
  have hn := h.not_and
  cases n1 with
  | comp k c fs =>
    cases c with
    | and => exact absurd rfl (hn k fs)
    | or => simp [distribute]
    | not => simp [distribute]
  | _ => simp [distribute]

theorem distributeR_cnfb {n1} (h1 : ClauseB n1) {n2} (h : CNFB n2) :
    CNFB (distributeR n1 n2) := by
  induction h with
  | clause f h => rw [distributeR_clause n1 h]; exact .clause _ (.or _ _ h1 h)
  | and a b _ _ iha ihb => simp only [distributeR]; exact .and _ _ iha ihb

theorem distributeR_sat (n1) {n2} (h : CNFB n2) {D} (I : Interp D) (σ : Asg D) :
    Sat I (distributeR n1 n2) σ ↔ Sat I n1 σ ∨ Sat I n2 σ := by
  induction h with
  | clause f h => rw [distributeR_clause n1 h]; simp [Sat, SatAny]
  | and a b _ _ iha ihb => simp only [distributeR, Sat, SatAll, iha, ihb]; grind

theorem distribute_cnfb {n1 n2} (h1 : CNFB n1) (h2 : CNFB n2) : CNFB (distribute n1 n2) := by
  induction h1 with
  | clause f h => rw [distribute_clause h]; exact distributeR_cnfb h h2
  | and a b _ _ iha ihb => rw [distribute]; exact .and _ _ iha ihb

theorem distribute_sat {n1 n2} (h1 : CNFB n1) (h2 : CNFB n2) {D} (I : Interp D) (σ : Asg D) :
    Sat I (distribute n1 n2) σ ↔ Sat I n1 σ ∨ Sat I n2 σ := by
  induction h1 with
  | clause f h => rw [distribute_clause h]; exact distributeR_sat f h2 I σ
  | and a b _ _ iha ihb => rw [distribute]; simp only [Sat, SatAll, iha, ihb]; grind

theorem cnfs_ok_cons {f fs gs} (h : cnfs (f :: fs) = .ok gs) :
    ∃ g gs', gs = g :: gs' ∧ cnf f = .ok g ∧ cnfs fs = .ok gs' := by
  rw [cnfs] at h
  split at h
  · cases h
  · rename_i g hg
    split at h
    · cases h
    · rename_i gs' hgs
      cases h
      exact ⟨g, gs', rfl, hg, hgs⟩

theorem foldl_and_cnfb (rest : List Formula) (acc : Formula) (h : ∀ g ∈ rest, CNFB g) (ha : CNFB acc) :
    CNFB (rest.foldl (fun r p => .comp .tuple .and [r, p]) acc) := by
  induction rest generalizing acc with
  | nil => exact ha
  | cons g gs ih =>
    simp only [List.mem_cons, forall_eq_or_imp] at h
    exact ih _ h.2 (.and _ _ ha h.1)

theorem foldl_and_sat (rest : List Formula) (acc : Formula) {D} (I : Interp D) (σ : Asg D) :
    Sat I (rest.foldl (fun r p => .comp .tuple .and [r, p]) acc) σ ↔ Sat I acc σ ∧ SatAll I rest σ := by
  induction rest generalizing acc with
  | nil => simp [SatAll]
  | cons g gs ih => simp only [List.foldl_cons, ih, SatAll, Sat, and_true, and_assoc]

theorem foldl_dist_cnfb (rest : List Formula) (acc : Formula) (h : ∀ g ∈ rest, CNFB g) (ha : CNFB acc) :
    CNFB (rest.foldl distribute acc) := by
  induction rest generalizing acc with
  | nil => exact ha
  | cons g gs ih =>
    simp only [List.mem_cons, forall_eq_or_imp] at h
    exact ih _ h.2 (distribute_cnfb ha h.1)

theorem foldl_dist_sat (rest : List Formula) (acc : Formula) (h : ∀ g ∈ rest, CNFB g) (ha : CNFB acc)
    {D} (I : Interp D) (σ : Asg D) :
    Sat I (rest.foldl distribute acc) σ ↔ Sat I acc σ ∨ SatAny I rest σ := by
  induction rest generalizing acc with
  | nil => simp [SatAny]
  | cons g gs ih =>
    simp only [List.mem_cons, forall_eq_or_imp] at h
    rw [List.foldl_cons, ih _ h.2 (distribute_cnfb ha h.1), distribute_sat ha h.1, SatAny, or_assoc]

theorem cnf_and_ok {k fs g} (h : cnf (.comp k .and fs) = .ok g) :
    ∃ p0 p1 rest, cnfs fs = .ok (p0 :: p1 :: rest) ∧
      g = rest.foldl (fun r p => .comp .tuple .and [r, p]) (.comp .tuple .and [p0, p1]) := by
  rw [cnf] at h
  split at h
  · cases h
  · rename_i p0 p1 rest hh; cases h; exact ⟨p0, p1, rest, hh, rfl⟩
  · cases h

theorem cnf_or_ok {k fs g} (h : cnf (.comp k .or fs) = .ok g) :
    ∃ p0 p1 rest, cnfs fs = .ok (p0 :: p1 :: rest) ∧
      g = rest.foldl distribute (distribute p0 p1) := by
  rw [cnf] at h
  split at h
  · cases h
  · rename_i p0 p1 rest hh; cases h; exact ⟨p0, p1, rest, hh, rfl⟩
  · cases h

mutual
theorem cnf_correct (f g : Formula) (hf : IsNNF f) (h : cnf f = .ok g) :
    CNFB g ∧ ∀ {D} (I : Interp D) (σ : Asg D), Sat I g σ ↔ Sat I f σ := by
  match f with
  | .top => simp [cnf] at h; subst h; exact ⟨.clause _ (.lit _ .top), fun _ _ => Iff.rfl⟩
  | .bot => simp [cnf] at h; subst h; exact ⟨.clause _ (.lit _ .bot), fun _ _ => Iff.rfl⟩
  | .atom p ts => simp [cnf] at h; subst h; exact ⟨.clause _ (.lit _ (.atom _ _)), fun _ _ => Iff.rfl⟩
  | .quant q vs f => simp [cnf] at h
  | .comp k .not fs =>
    simp [cnf] at h; subst h
    refine ⟨?_, fun _ _ => Iff.rfl⟩
    cases hf with
    | negAtom => exact .clause _ (.lit _ (.negAtom _ _ _))
    | andor _ _ _ hc => exact absurd rfl hc
  | .comp k .and fs =>
    obtain ⟨p0, p1, rest, hh, rfl⟩ := cnf_and_ok h
    have hfs : ∀ f ∈ fs, IsNNF f := by cases hf; assumption
    obtain ⟨h1, h2⟩ := cnfs_correct fs _ hfs hh
    simp only [List.mem_cons, forall_eq_or_imp] at h1
    refine ⟨foldl_and_cnfb _ _ h1.2.2 (.and _ _ h1.1 h1.2.1), fun I σ => ?_⟩
    rw [foldl_and_sat]
    have := (h2 I σ).1
    simp only [SatAll, Sat, and_true, and_assoc] at this ⊢
    exact this
  | .comp k .or fs =>
    obtain ⟨p0, p1, rest, hh, rfl⟩ := cnf_or_ok h
    have hfs : ∀ f ∈ fs, IsNNF f := by cases hf; assumption
    obtain ⟨h1, h2⟩ := cnfs_correct fs _ hfs hh
    simp only [List.mem_cons, forall_eq_or_imp] at h1
    have hd := distribute_cnfb h1.1 h1.2.1
    refine ⟨foldl_dist_cnfb _ _ h1.2.2 hd, fun I σ => ?_⟩
    rw [foldl_dist_sat _ _ h1.2.2 hd, distribute_sat h1.1 h1.2.1]
    have := (h2 I σ).2
    simp only [SatAny, Sat, or_assoc] at this ⊢
    exact this
theorem cnfs_correct (fs gs : List Formula) (hf : ∀ f ∈ fs, IsNNF f) (h : cnfs fs = .ok gs) :
    (∀ g ∈ gs, CNFB g) ∧ ∀ {D} (I : Interp D) (σ : Asg D),
      (SatAll I gs σ ↔ SatAll I fs σ) ∧ (SatAny I gs σ ↔ SatAny I fs σ) := by
  match fs with
  | [] => simp [cnfs] at h; subst h; simp
  | f :: fs =>
    obtain ⟨g, gs', rfl, hg, hgs⟩ := cnfs_ok_cons h
    simp only [List.mem_cons, forall_eq_or_imp] at hf
    have h1 := cnf_correct f g hf.1 hg
    have h2 := cnfs_correct fs gs' hf.2 hgs
    refine ⟨by simpa using ⟨h1.1, h2.1⟩, fun I σ => ?_⟩
    simp only [SatAll, SatAny, h1.2 I σ, (h2.2 I σ).1, (h2.2 I σ).2, and_self]
end

mutual
theorem cnf_succeeds (f : Formula) (hw : WF f) : (QFree f → ∃ g, cnf f = .ok g) ∧
    (IsNNF f → ¬ QFree f → cnf f = .error .transformation) := by
  match f with
  | .top => exact ⟨fun _ => ⟨_, rfl⟩, fun _ h => absurd .top h⟩
  | .bot => exact ⟨fun _ => ⟨_, rfl⟩, fun _ h => absurd .bot h⟩
  | .atom p ts => exact ⟨fun _ => ⟨_, rfl⟩, fun _ h => absurd (.atom p ts) h⟩
  | .quant q vs f => exact ⟨fun h => (by cases h), fun _ _ => rfl⟩
  | .comp k .not fs =>
    refine ⟨fun _ => ⟨_, rfl⟩, fun hn h => ?_⟩
    exfalso; apply h
    cases hn with
    | negAtom => exact .comp _ _ _ (by simp; exact .atom _ _)
    | andor _ _ _ hc => exact absurd rfl hc
  | .comp k .and fs =>
    have hw' : 2 ≤ fs.length ∧ ∀ f ∈ fs, WF f := by cases hw; exact ⟨by assumption, by assumption⟩
    have ih := cnfs_succeeds fs hw'.2
    constructor
    · intro hq
      have : ∀ f ∈ fs, QFree f := by cases hq; assumption
      obtain ⟨gs, hgs, hl⟩ := ih.1 this
      match gs, hgs, hl with
      | p0 :: p1 :: rest, hgs, _ => exact ⟨_, by rw [cnf, hgs]⟩
      | [], _, hl => simp at hl; omega
      | [_], _, hl => simp at hl; omega
    · intro hn hq
      have h1 : ∀ f ∈ fs, IsNNF f := by cases hn; assumption
      have h2 : ¬ ∀ f ∈ fs, QFree f := fun h => hq (.comp _ _ _ h)
      rw [cnf, ih.2 h1 h2]
  | .comp k .or fs =>
    have hw' : 2 ≤ fs.length ∧ ∀ f ∈ fs, WF f := by cases hw; exact ⟨by assumption, by assumption⟩
    have ih := cnfs_succeeds fs hw'.2
    constructor
    · intro hq
      have : ∀ f ∈ fs, QFree f := by cases hq; assumption
      obtain ⟨gs, hgs, hl⟩ := ih.1 this
      match gs, hgs, hl with
      | p0 :: p1 :: rest, hgs, _ => exact ⟨_, by rw [cnf, hgs]⟩
      | [], _, hl => simp at hl; omega
      | [_], _, hl => simp at hl; omega
    · intro hn hq
      have h1 : ∀ f ∈ fs, IsNNF f := by cases hn; assumption
      have h2 : ¬ ∀ f ∈ fs, QFree f := fun h => hq (.comp _ _ _ h)
      rw [cnf, ih.2 h1 h2]
theorem cnfs_succeeds (fs : List Formula) (hw : ∀ f ∈ fs, WF f) :
    ((∀ f ∈ fs, QFree f) → ∃ gs, cnfs fs = .ok gs ∧ gs.length = fs.length) ∧
    ((∀ f ∈ fs, IsNNF f) → (¬ ∀ f ∈ fs, QFree f) → cnfs fs = .error .transformation) := by
  match fs with
  | [] => simp [cnfs]
  | f :: fs =>
    simp only [List.mem_cons, forall_eq_or_imp] at hw ⊢
    have h1 := cnf_succeeds f hw.1
    have h2 := cnfs_succeeds fs hw.2
    constructor
    · rintro ⟨hq1, hq2⟩
      obtain ⟨g, hg⟩ := h1.1 hq1
      obtain ⟨gs, hgs, hl⟩ := h2.1 hq2
      exact ⟨g :: gs, by simp [cnfs, hg, hgs], by simp [hl]⟩
    · rintro ⟨hn1, hn2⟩ hq
      by_cases hq1 : QFree f
      · obtain ⟨g, hg⟩ := h1.1 hq1
        have := h2.2 hn2 (fun h => hq ⟨hq1, h⟩)
        simp [cnfs, hg, this]
      · simp [cnfs, h1.2 hn1 hq1]
end

mutual
theorem nnf_wf (b : Bool) (f g : Formula) (hw : WF f) (h : nnf b f = .ok g) : WF g := by
  match f with
  | .top => cases b <;> simp [nnf] at h; subst h; exact .top
  | .bot => cases b <;> simp [nnf] at h; subst h; exact .bot
  | .atom p ts =>
    cases b <;> simp [nnf] at h <;> subst h
    · exact .atom _ _
    · exact .not _ _ (.atom _ _)
  | .quant q vs f =>
    obtain ⟨g', hg, rfl⟩ := nnf_quant_ok h
    cases hw with
    | quant _ _ _ h1 h2 h3 => exact .quant _ _ _ h1 h2 (nnf_wf b f g' h3 hg)
  | .comp k .not fs =>
    obtain ⟨f', rfl, hg⟩ := nnf_not_ok h
    exact nnf_wf (!b) f' g (by cases hw <;> simp_all) hg
  | .comp k .and fs =>
    obtain ⟨gs, hgs, rfl⟩ := nnf_and_ok h
    have hw' : 2 ≤ fs.length ∧ ∀ f ∈ fs, WF f := by cases hw; exact ⟨by assumption, by assumption⟩
    have := nnfs_wf b fs gs hw'.2 hgs
    exact .andor _ _ _ (by cases b <;> simp) (by omega) this.2
  | .comp k .or fs =>
    obtain ⟨gs, hgs, rfl⟩ := nnf_or_ok h
    have hw' : 2 ≤ fs.length ∧ ∀ f ∈ fs, WF f := by cases hw; exact ⟨by assumption, by assumption⟩
    have := nnfs_wf b fs gs hw'.2 hgs
    exact .andor _ _ _ (by cases b <;> simp) (by omega) this.2
theorem nnfs_wf (b : Bool) (fs gs : List Formula) (hw : ∀ f ∈ fs, WF f) (h : nnfs b fs = .ok gs) :
    gs.length = fs.length ∧ ∀ g ∈ gs, WF g := by
  match fs with
  | [] => cases nnfs_ok_nil h; simp
  | f :: fs =>
    obtain ⟨g, gs', rfl, hg, hgs⟩ := nnfs_ok_cons h
    simp only [List.mem_cons, forall_eq_or_imp] at hw
    have h1 := nnf_wf b f g hw.1 hg
    have h2 := nnfs_wf b fs gs' hw.2 hgs
    simp [h2.1]; exact ⟨h1, h2.2⟩
end

mutual
theorem nnf_qfree (b : Bool) (f g : Formula) (h : nnf b f = .ok g) : QFree g ↔ QFree f := by
  match f with
  | .top => cases b <;> simp [nnf] at h; subst h; simp
  | .bot => cases b <;> simp [nnf] at h; subst h; simp
  | .atom p ts =>
    cases b <;> simp [nnf] at h <;> subst h
    · simp
    · exact ⟨fun _ => .atom _ _, fun h => .comp _ _ _ (by simpa using h)⟩
  | .quant q vs f =>
    obtain ⟨g', hg, rfl⟩ := nnf_quant_ok h
    constructor <;> intro h <;> cases h
  | .comp k .not fs =>
    obtain ⟨f', rfl, hg⟩ := nnf_not_ok h
    rw [nnf_qfree (!b) f' g hg]
    constructor
    · intro h; exact .comp _ _ _ (by simpa using h)
    · intro h; cases h with | comp _ _ _ h => simpa using h
  | .comp k .and fs =>
    obtain ⟨gs, hgs, rfl⟩ := nnf_and_ok h
    have := nnfs_qfree b fs gs hgs
    constructor
    · intro h; cases h with | comp _ _ _ h => exact .comp _ _ _ (this.mp h)
    · intro h; cases h with | comp _ _ _ h => exact .comp _ _ _ (this.mpr h)
  | .comp k .or fs =>
    obtain ⟨gs, hgs, rfl⟩ := nnf_or_ok h
    have := nnfs_qfree b fs gs hgs
    constructor
    · intro h; cases h with | comp _ _ _ h => exact .comp _ _ _ (this.mp h)
    · intro h; cases h with | comp _ _ _ h => exact .comp _ _ _ (this.mpr h)
theorem nnfs_qfree (b : Bool) (fs gs : List Formula) (h : nnfs b fs = .ok gs) :
    (∀ g ∈ gs, QFree g) ↔ ∀ f ∈ fs, QFree f := by
  match fs with
  | [] => cases nnfs_ok_nil h; simp
  | f :: fs =>
    obtain ⟨g, gs', rfl, hg, hgs⟩ := nnfs_ok_cons h
    simp only [List.mem_cons, forall_eq_or_imp, nnf_qfree b f g hg, nnfs_qfree b fs gs' hgs]
end

/-- Conjunction-of-disjunctions reading of a clause list. -/
def ClausesSat {D} (I : Interp D) (cls : List (List Formula)) (σ : Asg D) : Prop :=
  ∀ c ∈ cls, ∃ l ∈ c, Sat I l σ

theorem collect_lit {f} (h : IsLiteral f) (s : CState) : collect f s = .ok ⟨s.clauses, s.cur ++ [f]⟩ := by
  cases h <;> simp [collect]

theorem collect_clause {f} (h : ClauseB f) (s : CState) :
    ∃ ls, collect f s = .ok ⟨s.clauses, s.cur ++ ls⟩ ∧ (∀ l ∈ ls, IsLiteral l) ∧
      ∀ {D} (I : Interp D) (σ : Asg D), (∃ l ∈ ls, Sat I l σ) ↔ Sat I f σ := by
  induction h generalizing s with
  | lit f h => exact ⟨[f], collect_lit h s, by simpa using h, fun I σ => by simp⟩
  | or a b _ _ iha ihb =>
    obtain ⟨la, ha, hla, hsa⟩ := iha s
    obtain ⟨lb, hb, hlb, hsb⟩ := ihb ⟨s.clauses, s.cur ++ la⟩
    refine ⟨la ++ lb, by simp [collect, ha, hb], ?_, fun I σ => ?_⟩
    · intro l hl; rcases List.mem_append.mp hl with h | h
      · exact hla l h
      · exact hlb l h
    · simp only [List.mem_append, Sat, SatAny, or_false, ← hsa, ← hsb]
      grind

theorem collect_cnfb {f} (h : CNFB f) (s : CState) (hs : s.cur = []) :
    ∃ cls cur, collect f s = .ok ⟨s.clauses ++ cls, cur⟩ ∧ (∀ l ∈ cur, IsLiteral l) ∧
      (∀ c ∈ cls, ∀ l ∈ c, IsLiteral l) ∧
      (∀ {D} (I : Interp D) (σ : Asg D), (ClausesSat I (cls ++ [cur]) σ) ↔ Sat I f σ) ∧
      (isAnd f → cur ∈ cls) := by
  induction h generalizing s with
  | clause f h =>
    obtain ⟨ls, h1, h2, h3⟩ := collect_clause h s
    refine ⟨[], ls, by simp [h1, hs], h2, by simp, fun I σ => by simp [ClausesSat, h3], ?_⟩
    intro ha
    exfalso
    have := h.not_and
    cases f with
    | comp k c fs => cases c <;> simp_all [isAnd]
    | _ => simp [isAnd] at ha
  | and a b _ _ iha ihb =>
    obtain ⟨ca, cura, ha, ha1, ha2, ha3, ha4⟩ := iha ⟨s.clauses, []⟩ rfl
    obtain ⟨cb, curb, hb, hb1, hb2, hb3, hb4⟩ := ihb ⟨s.clauses ++ (ca ++ [cura]), []⟩ rfl
    refine ⟨ca ++ [cura] ++ cb ++ [curb], curb, by simp [collect, ha, hb], hb1, ?_, fun I σ => ?_, by simp⟩
    · intro c hc
      simp only [List.mem_append, List.mem_singleton] at hc
      rcases hc with ((h | h) | h) | h
      · exact ha2 c h
      · subst h; exact ha1
      · exact hb2 c h
      · subst h; exact hb1
    · simp only [Sat, SatAll, ← ha3, ← hb3, ClausesSat, List.mem_append, List.mem_singleton]
      grind

end Tarski

import Verif.CNFLemmas
/-! Properties C03, C04, C05: conjunctive normal form (cnf.py). -/
namespace Tarski

/-- C03, full statement: on every well-formed quantifier-free formula the CNF conversion returns an
equivalent formula, and on every other one it raises TransformationError. -/
def C03_full : Prop := ∀ f, WF f →
  (QFree f → ∃ g, toCNF f = .ok g ∧ Equiv f g) ∧ (¬ QFree f → toCNF f = .error .transformation)

/-- The code violates C03, inheriting the NNF defect on negated truth constants. -/
theorem C03_refuted : ¬ C03_full := by
  intro h
  obtain ⟨g, hg, _⟩ := (h (neg .top) (.not _ _ .top)).1 (.comp _ _ _ (by simpa using .top))
  simp [toCNF, toNNF, nnf, neg] at hg

theorem toCNF_ok {f g} (h : toCNF f = .ok g) : ∃ n, toNNF f = .ok n ∧ cnf n = .ok g := by
  unfold toCNF at h
  split at h
  · cases h
  · exact ⟨_, by assumption, h⟩

/-- C03, soundness: any formula returned is equivalent to the input. -/
theorem C03_cnf_equiv (f g : Formula) (h : toCNF f = .ok g) : Equiv f g := by
  obtain ⟨n, hn, hc⟩ := toCNF_ok h
  intro D I σ
  have h1 := nnf_sound false f n hn I σ
  have h2 := (cnf_correct n g (nnf_shape false f n hn) hc).2 I σ
  simp only [NegIf, Bool.false_eq_true, if_false] at h1
  rw [h2, h1]

/-- C03 (part that holds): the full statement for every formula without a truth constant below an odd
number of negations; missing: those (there NNF conversion does not return a formula). -/
theorem C03_cnf_partial (f : Formula) (hf : WF f) (hc : ¬ ConstAt true f) :
    (QFree f → ∃ g, toCNF f = .ok g ∧ Equiv f g) ∧ (¬ QFree f → toCNF f = .error .transformation) := by
  obtain ⟨n, hn⟩ := (nnf_exists hf false true rfl).mpr hc
  have hw := nnf_wf false f n hf hn
  have hq := nnf_qfree false f n hn
  have hs := cnf_succeeds n hw
  constructor
  · intro h
    obtain ⟨g, hg⟩ := hs.1 (hq.mpr h)
    have : toCNF f = .ok g := by simp [toCNF, toNNF, hn, hg]
    exact ⟨g, this, C03_cnf_equiv f g this⟩
  · intro h
    have := hs.2 (nnf_shape false f n hn) (fun h' => h (hq.mp h'))
    simp [toCNF, toNNF, hn, this]

/-- C04: every formula returned is a conjunction of disjunctions of literals. -/
theorem C04_cnf_shape (f g : Formula) (h : toCNF f = .ok g) : IsCNF g := by
  obtain ⟨n, hn, hc⟩ := toCNF_ok h
  exact (cnf_correct n g (nnf_shape false f n hn) hc).1.isCNF

/-- `(a and b) or not (c or (d and a))`, a formula where distribution has to work. -/
def cnfSample : Formula :=
  let at' s : Formula := .atom (.user s) []
  .comp .tuple .or [.comp .tuple .and [at' "a", at' "b"],
    neg (.comp .tuple .or [at' "c", .comp .tuple .and [at' "d", at' "a"]])]

example : ∃ g, toCNF cnfSample = .ok g ∧ isAnd g := ⟨_, rfl, rfl⟩

/-- C05, full statement: the clause list returned denotes the input, and consists of literals. -/
def C05_full : Prop := ∀ f cls, toCNFClauses f = .ok cls →
  (∀ c ∈ cls, ∀ l ∈ c, IsLiteral l) ∧
  ∀ (D : Type) (I : Interp D) (σ : Asg D), (∀ c ∈ cls, ∃ l ∈ c, Sat I l σ) ↔ Sat I f σ

/-- The code violates C05: the clause list of a single atom (or of any formula whose CNF is one clause)
is empty, i.e. denotes truth: cnf.py:78 collects the literal, but only conjunction nodes append
the current clause to the result. -/
theorem C05_refuted : ¬ C05_full := by
  intro h
  have := (h (.atom (.user "p") []) [] (by simp [toCNFClauses, toCNF, toNNF, nnf, cnf, collect])).2
    Unit ⟨fun _ _ => (), fun _ _ => (), fun _ _ => False, fun _ _ => True⟩ (fun _ => ())
  simp [Sat] at this

/-- Every single-clause result is lost. -/
theorem C05_single_clause_lost (f g : Formula) (h : toCNF f = .ok g) (hc : IsClause g) :
    toCNFClauses f = .ok [] := by
  obtain ⟨n, hn, hcn⟩ := toCNF_ok h
  have hb := (cnf_correct n g (nnf_shape false f n hn) hcn).1
  cases hb with
  | clause _ hcl =>
    obtain ⟨ls, h1, _⟩ := collect_clause hcl ⟨[], []⟩
    simp [toCNFClauses, h, h1]
  | and a b => exact absurd hc (by intro h; cases h with | lit _ h => cases h)

/-- C05 (part that holds): the full statement whenever the CNF formula is a conjunction; missing: the
single-clause case, refuted above. -/
theorem C05_clauses_partial (f g : Formula) (h : toCNF f = .ok g) (ha : isAnd g = true) :
    ∃ cls, toCNFClauses f = .ok cls ∧ (∀ c ∈ cls, ∀ l ∈ c, IsLiteral l) ∧
      ∀ (D : Type) (I : Interp D) (σ : Asg D), (∀ c ∈ cls, ∃ l ∈ c, Sat I l σ) ↔ Sat I f σ := by
  obtain ⟨n, hn, hcn⟩ := toCNF_ok h
  have hb := (cnf_correct n g (nnf_shape false f n hn) hcn).1
  obtain ⟨cls, cur, h1, h2, h3, h4, h5⟩ := collect_cnfb hb ⟨[], []⟩ rfl
  refine ⟨cls, by simp [toCNFClauses, h, h1], h3, fun D I σ => ?_⟩
  have he := C03_cnf_equiv f g h D I σ
  rw [he, ← h4 I σ]
  have hm := h5 ha
  constructor
  · intro hc c hcm
    rcases List.mem_append.mp hcm with h | h
    · exact hc c h
    · simp only [List.mem_singleton] at h; subst h; exact hc _ hm
  · intro hc c hcm; exact hc c (by simp [hcm])

example : ∃ g, toCNF cnfSample = .ok g ∧ isAnd g = true := ⟨_, rfl, rfl⟩

end Tarski

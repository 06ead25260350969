import Verif.Flatten
import Verif.Equality
/-! Properties C11 (connective constructors), C12 (flatten), C16 (equality and hashing). -/
namespace Tarski

theorem toBinaryTree_and {D} (I : Interp D) (σ : Asg D) :
    ∀ fs, fs ≠ [] → (Sat I (toBinaryTree .and fs) σ ↔ ∀ f ∈ fs, Sat I f σ) := by
  intro fs
  induction fs with
  | nil => simp
  | cons a fs ih =>
    intro _
    match fs, ih with
    | [], _ => simp [toBinaryTree]
    | [b], _ => simp [toBinaryTree, Sat, SatAll]
    | b :: c :: fs, ih => simp [toBinaryTree, Sat, SatAll, ih (by simp)]

theorem toBinaryTree_or {D} (I : Interp D) (σ : Asg D) :
    ∀ fs, fs ≠ [] → (Sat I (toBinaryTree .or fs) σ ↔ ∃ f ∈ fs, Sat I f σ) := by
  intro fs
  induction fs with
  | nil => simp
  | cons a fs ih =>
    intro _
    match fs, ih with
    | [], _ => simp [toBinaryTree]
    | [b], _ => simp [toBinaryTree, Sat, SatAny]
    | b :: c :: fs, ih => simp [toBinaryTree, Sat, SatAny, ih (by simp)]

/-- C11: `land(*args, flat=...)` is true iff all arguments are, for any number of arguments. -/
theorem C11_land (args : List Formula) (flat : Bool) {D} (I : Interp D) (σ : Asg D) :
    Sat I (land args flat) σ ↔ ∀ f ∈ args, Sat I f σ := by
  match args with
  | [] => simp [land, Sat]
  | [a] => simp [land, createCompound]
  | a :: b :: rest =>
    cases flat
    · simpa [land, createCompound] using toBinaryTree_and I σ (a :: b :: rest) (by simp)
    · simp [land, createCompound, Sat, SatAll, satAll_iff]

/-- C11: `lor(*args, flat=...)` is true iff some argument is, for any number of arguments. -/
theorem C11_lor (args : List Formula) (flat : Bool) {D} (I : Interp D) (σ : Asg D) :
    Sat I (lor args flat) σ ↔ ∃ f ∈ args, Sat I f σ := by
  match args with
  | [] => simp [lor, Sat]
  | [a] => simp [lor, createCompound]
  | a :: b :: rest =>
    cases flat
    · simpa [lor, createCompound] using toBinaryTree_or I σ (a :: b :: rest) (by simp)
    · simp [lor, createCompound, Sat, SatAny, satAny_iff]

/-- C11: negation, implication and bi-implication. -/
theorem C11_neg_implies_equiv (f g : Formula) {D} (I : Interp D) (σ : Asg D) :
    (Sat I (neg f) σ ↔ ¬ Sat I f σ) ∧ (Sat I (implies f g) σ ↔ (Sat I f σ → Sat I g σ)) ∧
    (Sat I (equiv f g) σ ↔ (Sat I f σ ↔ Sat I g σ)) := by
  have hneg : ∀ f, Sat I (neg f) σ ↔ ¬ Sat I f σ := by intro f; simp [neg, Sat, SatAll]
  have himp : ∀ f g, Sat I (implies f g) σ ↔ (Sat I f σ → Sat I g σ) := by
    intro f g
    rw [implies, C11_lor]
    simp [hneg]; grind
  refine ⟨hneg f, himp f g, ?_⟩
  rw [equiv, C11_land]
  simp [himp]; grind

/-- C11: whatever well-formed formulas are given, the constructors return well-formed formulas
(no malformed compound formula is ever built, for any number of arguments). -/
theorem C11_wf (args : List Formula) (flat : Bool) (h : ∀ f ∈ args, WF f) :
    WF (land args flat) ∧ WF (lor args flat) := by
  have key : ∀ c, c ≠ .not → ∀ args : List Formula, args ≠ [] → (∀ f ∈ args, WF f) →
      WF (toBinaryTree c args) := by
    intro c hc args
    induction args with
    | nil => simp
    | cons a fs ih =>
      intro _ hw
      simp only [List.mem_cons, forall_eq_or_imp] at hw
      match fs, ih, hw with
      | [], _, hw => simpa [toBinaryTree] using hw.1
      | [b], _, hw =>
        simp only [toBinaryTree]
        exact .andor _ _ _ hc (by simp) (by simpa using hw)
      | b :: c' :: fs, ih, hw =>
        simp only [toBinaryTree]
        refine .andor _ _ _ hc (by simp) ?_
        intro f hf
        simp only [List.mem_cons, List.not_mem_nil, or_false] at hf
        rcases hf with rfl | rfl
        · exact hw.1
        · exact ih (by simp) hw.2
  match args, h with
  | [], _ => exact ⟨.top, .bot⟩
  | [a], h => exact ⟨h a (by simp), h a (by simp)⟩
  | a :: b :: rest, h =>
    cases flat
    · exact ⟨key _ (by simp) _ (by simp) h, key _ (by simp) _ (by simp) h⟩
    · exact ⟨.andor _ _ _ (by simp) (by simp) h, .andor _ _ _ (by simp) (by simp) h⟩

example : land [.top, .bot, .top] = .comp .tuple .and [.top, .comp .tuple .and [.bot, .top]] := by rfl

/-! ### C12 -/

theorem flattenAux_ne {c f} (h : ∀ k fs, f ≠ .comp k c fs) : flattenAux c f = [f] := by
  cases f with
  | comp k d fs =>
    rw [flattenAux, if_neg]
    intro hd; subst hd; exact h k fs rfl
  | _ => simp [flattenAux]

mutual
theorem flattenAux_and {D} (I : Interp D) (σ : Asg D) (f : Formula) :
    (∀ g ∈ flattenAux .and f, Sat I g σ) ↔ Sat I f σ := by
  match f with
  | .top => simp [flattenAux]
  | .bot => simp [flattenAux]
  | .atom p ts => simp [flattenAux]
  | .quant q vs f => simp [flattenAux]
  | .comp k .and fs =>
    rw [flattenAux, if_pos rfl, Sat]; exact flattenAuxs_and I σ fs
  | .comp k .or fs => simp [flattenAux]
  | .comp k .not fs => simp [flattenAux]
theorem flattenAuxs_and {D} (I : Interp D) (σ : Asg D) (fs : List Formula) :
    (∀ g ∈ flattenAuxs .and fs, Sat I g σ) ↔ SatAll I fs σ := by
  match fs with
  | [] => simp [flattenAuxs, SatAll]
  | f :: fs =>
    rw [flattenAuxs, SatAll, ← flattenAux_and I σ f, ← flattenAuxs_and I σ fs]
    simp only [List.mem_append]; grind
end

mutual
theorem flattenAux_or {D} (I : Interp D) (σ : Asg D) (f : Formula) :
    (∃ g ∈ flattenAux .or f, Sat I g σ) ↔ Sat I f σ := by
  match f with
  | .top => simp [flattenAux]
  | .bot => simp [flattenAux]
  | .atom p ts => simp [flattenAux]
  | .quant q vs f => simp [flattenAux]
  | .comp k .or fs =>
    rw [flattenAux, if_pos rfl, Sat]; exact flattenAuxs_or I σ fs
  | .comp k .and fs => simp [flattenAux]
  | .comp k .not fs => simp [flattenAux]
theorem flattenAuxs_or {D} (I : Interp D) (σ : Asg D) (fs : List Formula) :
    (∃ g ∈ flattenAuxs .or fs, Sat I g σ) ↔ SatAny I fs σ := by
  match fs with
  | [] => simp [flattenAuxs, SatAny]
  | f :: fs =>
    rw [flattenAuxs, SatAny, ← flattenAux_or I σ f, ← flattenAuxs_or I σ fs]
    simp only [List.mem_append]; grind
end

mutual
theorem flattenAux_noroot (c : Conn) (f : Formula) : ∀ g ∈ flattenAux c f, ∀ k fs, g ≠ .comp k c fs := by
  match f with
  | .top => simp [flattenAux]
  | .bot => simp [flattenAux]
  | .atom p ts => simp [flattenAux]
  | .quant q vs f => simp [flattenAux]
  | .comp k d fs =>
    by_cases hd : d = c
    · rw [flattenAux, if_pos hd]; exact flattenAuxs_noroot c fs
    · rw [flattenAux, if_neg hd]
      intro g hg k' fs' he
      simp only [List.mem_singleton] at hg
      subst hg; injection he with _ h; exact hd h
theorem flattenAuxs_noroot (c : Conn) (fs : List Formula) : ∀ g ∈ flattenAuxs c fs, ∀ k fs, g ≠ .comp k c fs := by
  match fs with
  | [] => simp [flattenAuxs]
  | f :: fs =>
    rw [flattenAuxs]
    intro g hg
    rcases List.mem_append.mp hg with h | h
    · exact flattenAux_noroot c f g h
    · exact flattenAuxs_noroot c fs g h
end

theorem flattenAuxs_id (c : Conn) (fs : List Formula) (h : ∀ g ∈ fs, ∀ k fs, g ≠ .comp k c fs) :
    flattenAuxs c fs = fs := by
  induction fs with
  | nil => simp [flattenAuxs]
  | cons f fs ih =>
    simp only [List.mem_cons, forall_eq_or_imp] at h
    rw [flattenAuxs, flattenAux_ne h.1, ih h.2]; rfl

/-- C12: flatten preserves meaning. -/
theorem C12_flatten_equiv (f : Formula) : Equiv f (flatten f) := by
  intro D I σ
  cases f with
  | comp k c fs =>
    cases c with
    | and =>
      simp only [flatten]
      rw [← flattenAux_and I σ (.comp k .and fs)]; simp only [Sat, satAll_iff]
    | or =>
      simp only [flatten]
      rw [← flattenAux_or I σ (.comp k .or fs)]; simp only [Sat, satAny_iff]
    | not => simp [flatten]
  | _ => simp [flatten]

/-- C12: no direct subformula of a flattened and/or formula has the same connective as the root. -/
theorem C12_flatten_shape (f : Formula) (k : Kind) (c : Conn) (gs : List Formula) (hc : c ≠ .not)
    (h : flatten f = .comp k c gs) : ∀ g ∈ gs, ∀ k' hs, g ≠ .comp k' c hs := by
  cases f with
  | comp k' d fs =>
    cases d with
    | not => simp only [flatten] at h; injection h with _ h; exact absurd h.symm hc
    | and =>
      simp only [flatten] at h
      injection h with h1 h2 h3; subst h2; subst h3
      exact flattenAux_noroot .and _
    | or =>
      simp only [flatten] at h
      injection h with h1 h2 h3; subst h2; subst h3
      exact flattenAux_noroot .or _
  | _ => simp [flatten] at h

/-- C12: flattening twice is flattening once. -/
theorem C12_flatten_idem (f : Formula) : flatten (flatten f) = flatten f := by
  cases f with
  | comp k c fs =>
    cases c with
    | and =>
      simp only [flatten]
      congr 1
      conv => lhs; rw [flattenAux, if_pos rfl]
      exact flattenAuxs_id _ _ (flattenAux_noroot _ _)
    | or =>
      simp only [flatten]
      congr 1
      conv => lhs; rw [flattenAux, if_pos rfl]
      exact flattenAuxs_id _ _ (flattenAux_noroot _ _)
    | not => simp [flatten]
  | _ => simp [flatten]

theorem flattenAuxs_length_ge (c : Conn) (fs : List Formula)
    (h : ∀ f ∈ fs, 1 ≤ (flattenAux c f).length) : fs.length ≤ (flattenAuxs c fs).length := by
  induction fs with
  | nil => simp [flattenAuxs]
  | cons f fs ih =>
    simp only [List.mem_cons, forall_eq_or_imp] at h
    have := ih h.2
    simp only [flattenAuxs, List.length_append, List.length_cons]; omega

theorem flattenAux_pos {f} (hw : WF f) (c : Conn) : 1 ≤ (flattenAux c f).length := by
  induction hw with
  | top => simp [flattenAux]
  | bot => simp [flattenAux]
  | atom => simp [flattenAux]
  | quant => simp [flattenAux]
  | not k f _ ih =>
    rw [flattenAux]; split
    · simp only [flattenAuxs, List.append_nil]; exact ih
    · simp
  | andor k d fs _ hl _ ih =>
    rw [flattenAux]; split
    · have := flattenAuxs_length_ge c fs ih; omega
    · simp

/-- C12: flattening a well-formed formula never builds a malformed one (so the constructor check in
`CompoundFormula` never fails). -/
theorem C12_flatten_wf (f : Formula) (hw : WF f) : ∀ k c gs, c ≠ .not → flatten f = .comp k c gs → 2 ≤ gs.length := by
  intro k c gs hc h
  cases hw with
  | andor k' d fs hd hl hfs =>
    have hp := flattenAuxs_length_ge d fs (fun f hf => flattenAux_pos (hfs f hf) d)
    cases d with
    | not => exact absurd rfl hd
    | and =>
      simp only [flatten] at h; injection h with h1 h2 h3; subst h3
      rw [flattenAux, if_pos rfl]; omega
    | or =>
      simp only [flatten] at h; injection h with h1 h2 h3; subst h3
      rw [flattenAux, if_pos rfl]; omega
  | not k' f => simp only [flatten] at h; injection h with h1 h2 h3; exact absurd h2.symm hc
  | _ => simp [flatten] at h

example : flatten (lor [.top, .bot, .atom (.user "p") []]) =
    .comp .tuple .or [.top, .bot, .atom (.user "p") []] := by rfl

/-! ### C16 -/

/-- C16: equality of formulas and symref-equality of terms are equivalence relations, and equal
expressions have equal hashes. -/
theorem C16_equality :
    ((∀ t, termEq t t = true) ∧ (∀ t u, termEq t u = true → termEq u t = true) ∧
     (∀ t u v, termEq t u = true → termEq u v = true → termEq t v = true) ∧
     (∀ t u, termEq t u = true → termHash t = termHash u)) ∧
    ((∀ f, formulaEq f f = true) ∧ (∀ f g, formulaEq f g = true → formulaEq g f = true) ∧
     (∀ f g h, formulaEq f g = true → formulaEq g h = true → formulaEq f h = true) ∧
     (∀ f g, formulaEq f g = true → formulaHash f = formulaHash g)) := by
  simp only [termEq_iff, formulaEq_iff]
  refine ⟨⟨fun _ => trivial, fun _ _ h => h.symm, fun _ _ _ h h' => h.trans h', fun _ _ h => by rw [h]⟩,
    ⟨fun _ => trivial, fun _ _ h => h.symm, fun _ _ _ h h' => h.trans h', fun _ _ h => by rw [h]⟩⟩

/-- C16: equal formulas are interchangeable: they have the same meaning everywhere. -/
theorem C16_equal_equiv (f g : Formula) (h : formulaEq f g = true) : Equiv f g := by
  rw [(formulaEq_iff f g).mp h]; intro D I σ; rfl

/-- C16, limit: equality distinguishes python containers, `CompoundFormula(And, (a, b))` (as built by
`land`) and `CompoundFormula(And, [a, b])` are different although they have the same hash, the same
string form and the same meaning. -/
theorem C16_container_sensitive (a b : Formula) :
    formulaEq (.comp .tuple .and [a, b]) (.comp .list .and [a, b]) = false ∧
    formulaHash (.comp .tuple .and [a, b]) = formulaHash (.comp .list .and [a, b]) := by
  constructor
  · simp [formulaEq]
  · simp [formulaHash]

end Tarski

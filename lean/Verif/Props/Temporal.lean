import Verif.TemporalLemmas
/-! Property C115: temporal formulas. -/
namespace Tarski

/-- C115: `X`, `F`, `G` and a negation take exactly one formula, `U`, `R`, conjunction and disjunction take two formulas or more, and give the formula
with that connective and these subformulas; all else raises LanguageError. -/
theorem C115_construct (c : LConn) (args : List (Option TF)) :
    (∀ f, mkTemporal c args = .ok f ↔ ∃ fs, args = fs.map some ∧ f = .comp c fs ∧
      (if c = .next ∨ c = .eventually ∨ c = .always ∨ c = .bool .not then fs.length = 1 else 2 ≤ fs.length)) ∧
    (∀ e, mkTemporal c args = .error e → e = .language) := by
  have ha : ∀ fs, allForms args = some fs ↔ args = fs.map some := by
    induction args with
    | nil => intro fs; cases fs <;> simp [allForms]
    | cons a args ih =>
      intro fs
      cases a with
      | none => cases fs <;> simp [allForms]
      | some f =>
        cases fs with
        | nil => simp [allForms]
        | cons g fs => simp only [allForms, Option.map_eq_some_iff, List.cons.injEq, List.map_cons, Option.some.injEq]
                       constructor
                       · rintro ⟨a, h, rfl, rfl⟩; exact ⟨rfl, (ih _).mp h⟩
                       · rintro ⟨rfl, h⟩; exact ⟨fs, (ih _).mpr h, rfl, rfl⟩
  have hu : c.unary = true ↔ (c = .next ∨ c = .eventually ∨ c = .always ∨ c = .bool .not) := by
    cases c with
    | bool b => cases b <;> simp [LConn.unary]
    | _ => simp [LConn.unary]
  unfold mkTemporal
  cases h : allForms args with
  | none =>
    refine ⟨fun f => ⟨by nofun, ?_⟩, by simp⟩
    rintro ⟨fs, h1, _⟩
    rw [(ha fs).mpr h1] at h; cases h
  | some fs =>
    have h1 := (ha fs).mp h
    have hinj : ∀ gs : List TF, args = gs.map some → gs = fs := by
      intro gs hg
      have := (ha gs).mpr hg
      rw [h] at this; exact (Option.some.inj this).symm
    by_cases hc : c.unary = true
    · have hc' := hu.mp hc
      simp only [hc, if_true, if_pos hc']
      split
      · rename_i hl
        refine ⟨fun f => ⟨by nofun, ?_⟩, by simp⟩
        rintro ⟨gs, hg, _, hl'⟩
        exact absurd (hinj gs hg ▸ hl') hl
      · rename_i hl
        refine ⟨fun f => ⟨?_, ?_⟩, by nofun⟩
        · intro he; cases he; exact ⟨fs, h1, rfl, by simpa using hl⟩
        · rintro ⟨gs, hg, rfl, _⟩; rw [hinj gs hg]
    · have hc' : ¬ (c = .next ∨ c = .eventually ∨ c = .always ∨ c = .bool .not) := fun x => hc (hu.mpr x)
      simp only [hc, if_neg hc']
      simp only [Bool.false_eq_true, if_false]
      split
      · rename_i hl
        refine ⟨fun f => ⟨by nofun, ?_⟩, by simp⟩
        rintro ⟨gs, hg, _, hl'⟩
        rw [hinj gs hg] at hl'; omega
      · rename_i hl
        refine ⟨fun f => ⟨?_, ?_⟩, by nofun⟩
        · intro he; cases he; exact ⟨fs, h1, rfl, by omega⟩
        · rintro ⟨gs, hg, rfl, _⟩; rw [hinj gs hg]

/-- C115: what the functions build means what their names say: at a time `t`, next, at some time, at all times, until, release. -/
theorem C115_meaning {D} (M : Nat → Interp D) (σ : Asg D) (t : Nat) (a b : TF) :
    (∃ f, ltlX (some a) = .ok f ∧ (SatL M f σ t ↔ SatL M a σ (t + 1))) ∧
    (∃ f, ltlF (some a) = .ok f ∧ (SatL M f σ t ↔ ∃ u, t ≤ u ∧ SatL M a σ u)) ∧
    (∃ f, ltlG (some a) = .ok f ∧ (SatL M f σ t ↔ ∀ u, t ≤ u → SatL M a σ u)) ∧
    (∃ f, ltlU [some a, some b] = .ok f ∧
      (SatL M f σ t ↔ ∃ u, t ≤ u ∧ SatL M b σ u ∧ ∀ i, t ≤ i → i < u → SatL M a σ i)) ∧
    (∃ f, ltlR [some a, some b] = .ok f ∧
      (SatL M f σ t ↔ ∀ u, t ≤ u → SatL M b σ u ∨ ∃ i, t ≤ i ∧ i < u ∧ SatL M a σ i)) := by
  refine ⟨⟨_, rfl, ?_⟩, ⟨_, rfl, ?_⟩, ⟨_, rfl, ?_⟩, ⟨_, rfl, ?_⟩, ⟨_, rfl, ?_⟩⟩
  · simp [SatL, SatLs, connMeaning]
  · simp [SatL, SatLs, connMeaning]
  · simp [SatL, SatLs, connMeaning]
  · simp [SatL, SatLs, connMeaning, nested, untilAt]
  · simp [SatL, SatLs, connMeaning, nested, releaseAt]

/-- C115, full statement for the weak until: two formulas give a formula that means that the first one holds until the second one does, or always. -/
def C115_weak_full : Prop := ∀ a b : TF, ∃ f, ltlW [some a, some b] = .ok f ∧ ∀ (D : Type) (M : Nat → Interp D) (σ : Asg D) (t : Nat),
  SatL M f σ t ↔ untilAt (SatL M a σ) (SatL M b σ) t ∨ ∀ u, t ≤ u → SatL M a σ u

/-- The code violates it: `W` raises LanguageError on all arguments. -/
theorem C115_weak_refuted : ¬ C115_weak_full ∧ ∀ args, ltlW args = .error .language := by
  have h : ∀ args, ltlW args = .error .language := fun args => rfl
  refine ⟨?_, h⟩
  intro H
  obtain ⟨f, hf, _⟩ := H .top .top
  rw [h] at hf; cases hf

/-- C115, full statement for quantifier elimination: a returned formula is equivalent in all sequences of interpretations (in which names and sorts
mean the same at all times, and sorts consist of the denotations of the listed constants). -/
def C115_qe_full : Prop := ∀ (dom : Domains) (mode : QEMode) (f g : TF), VarBindersL f → removeQuantifiersT dom mode f = .ok g →
  ∀ (D : Type) (M : Nat → Interp D), Rigid M → (∀ t, DomOK (M t) dom) → ∀ σ t, SatL M g σ t ↔ SatL M f σ t

/-- C115 (part that holds): it is, if no variable is bound again in the scope of its own quantifier. -/
theorem C115_qe_partial (dom : Domains) (mode : QEMode) (f g : TF) (hb : VarBindersL f) (hr : NoRebindL f)
    (h : removeQuantifiersT dom mode f = .ok g) (D : Type) (M : Nat → Interp D) (hM : Rigid M) (hI : ∀ t, DomOK (M t) dom)
    (σ : Asg D) (t : Nat) : SatL M g σ t ↔ SatL M f σ t :=
  qeT_main dom mode (fun s cs hs => (hI 0 s cs hs).1) _ f g hb hr h D M hM hI σ t

/-- C115: a returned formula contains no quantifier of the requested kinds, also under temporal connectives. -/
theorem C115_qe_removes (dom : Domains) (mode : QEMode) (f g : TF) (h : removeQuantifiersT dom mode f = .ok g) : NoQuantL mode.elim g :=
  qeT_noQuant dom mode _ f g h

/-- C115: on a first-order formula temporal truth is truth in the interpretation of the time. -/
theorem C115_first_order {D} (M : Nat → Interp D) (f : TF) (f0 : Formula) (h : FirstOrder f f0) (σ : Asg D) (t : Nat) :
    SatL M f σ t ↔ Sat (M t) f0 σ := firstOrder_sat M f f0 h σ t

/-- C115: the negation normal form of a formula raises UnexpectedElementType if and only if a temporal connective occurs in it; it never returns a
formula whose temporal part was mistreated. -/
theorem C115_nnf (f : TF) (h : NotUnary f) (negated : Bool) :
    (nnfT negated f = .error .unexpected ↔ HasTemporal f) ∧ (∀ e, nnfT negated f = .error e → e = .unexpected) := by
  rcases nnfT_spec f h negated with ⟨h1, h2⟩ | ⟨⟨r, h1⟩, h2⟩
  · exact ⟨⟨fun _ => h2, fun _ => h1⟩, fun e he => by rw [h1] at he; cases he; rfl⟩
  · exact ⟨⟨fun h' => (by rw [h1] at h'; cases h'), fun h' => absurd h' h2⟩, fun e he => by rw [h1] at he; cases he⟩

/-- C115: a negation normal form, if there is one (`none`: a class in the place of a formula), means the same. -/
theorem C115_nnf_equiv {D} (M : Nat → Interp D) (f g : TF) (hf : NotUnary f) (h : nnfT false f = .ok (some g)) (σ : Asg D) (t : Nat) :
    SatL M g σ t ↔ SatL M f σ t := by
  simpa using nnfT_sem M f hf false g h σ t

/-- C115: a truth value that `evaluate` returns is the truth value of the formula at the current time in every sequence of interpretations that starts
with the current one, provided that atoms are evaluated rightly: temporal connectives are never evaluated as something else. -/
theorem C115_evaluate {D} (M : Nat → Interp D) (σ : Asg D) (t : Nat) (ev : PSym → List Term → Except Err Bool)
    (hev : ∀ p ts b, ev p ts = .ok b → ((M t).pred p (evalTs (M t) ts σ) ↔ b = true)) (f : TF) (hf : NotUnary f) (b : Bool)
    (h : evT ev f = .ok b) : SatL M f σ t ↔ b = true := evT_sound M σ t ev hev f hf b h

/-- C115: a temporal formula itself is never evaluated: KeyError. -/
theorem C115_evaluate_error (ev : PSym → List Term → Except Err Bool) (c : LConn) (hc : ∀ b, c ≠ .bool b) (fs : List TF) :
    evT ev (.comp c fs) = .error .keyError := by
  cases c with
  | bool b => exact absurd rfl (hc b)
  | _ => simp [evT]

/-! ### Examples -/

/-- `forall x. G (p(x) or X exists y. q(x, y))` over `{a, b}` -/
def exTF : TF := .quant .forall [.var ⟨"x", "o"⟩] (.comp .always [.comp (.bool .or) [.atom (.user "p") [.var ⟨"x", "o"⟩],
  .comp .next [.quant .exists [.var ⟨"y", "o"⟩] (.atom (.user "q") [.var ⟨"x", "o"⟩, .var ⟨"y", "o"⟩])]]])

def exTA : Term := .const (.str "a") "o"
def exTB : Term := .const (.str "b") "o"
def exTDom : Domains := fun s => if s = "o" then .ok [exTA, exTB] else .ok []

def exTPart (c : Term) : TF := .comp .always [.comp (.bool .or) [.atom (.user "p") [c],
  .comp .next [.comp (.bool .or) [.atom (.user "q") [c, exTA], .atom (.user "q") [c, exTB]]]]]

example : VarBindersL exTF ∧ NoRebindL exTF ∧
    removeQuantifiersT exTDom .all exTF = .ok (.comp (.bool .and) [exTPart exTA, exTPart exTB]) := by
  refine ⟨by simp [exTF, VarBindersL, VarBindersLs, VarBindersTs, VarBindersT], ?_, ?_⟩
  · simp [exTF, NoRebindL, NoRebindLs, BoundL, BoundLs, BoundTs, BoundT]
  · simp [removeQuantifiersT, exTF, tdepth, tdepths, qeTFuel, qeT, qeTs, QEMode.elim, expandT, enumerateGroundings, enumLoop, exTDom, exTA, exTB,
      exTPart, cart, createSubst, subL, subLs, subTs, subT, Subst.visit, Subst.get?, creatorT, treeT]

/-- A sequence of interpretations over two objects: `p` holds at even times, `q` of different objects. -/
def exTM : Nat → Interp Bool := fun t => ⟨fun n _ => n = .str "a", fun _ _ => false,
  fun p ds => if p = .user "p" then t % 2 = 0 else ds[0]? ≠ ds[1]?, fun s _ => s = "o"⟩

theorem exTM_ok : Rigid exTM ∧ ∀ t, DomOK (exTM t) exTDom := by
  refine ⟨fun t u => ⟨rfl, rfl⟩, ?_⟩
  intro t s cs hcs
  by_cases hs : s = "o"
  · subst hs
    simp [exTDom] at hcs; subst hcs
    refine ⟨by intro c hc; simp at hc; rcases hc with rfl | rfl <;> exact ⟨_, _, rfl⟩, ?_⟩
    intro d
    cases d
    · simp [exTM]; exact ⟨.str "b", ⟨"o", by simp [exTB]⟩, by simp⟩
    · simp [exTM]; exact ⟨"o", by simp [exTA]⟩
  · simp [exTDom, hs] at hcs; subst hcs; simp [hs, exTM]

example : HasTemporal exTF := .under _ _ _ (.here _ _ (by simp))
example : NotUnary exTF ∧ nnfT true exTF = .error .unexpected := by
  refine ⟨.quant _ _ _ (.comp _ _ (by simp) ?_), by simp [nnfT, exTF]⟩
  simp only [List.mem_cons, List.not_mem_nil, or_false, forall_eq]
  refine .comp _ _ (by simp) ?_
  simp only [List.mem_cons, List.not_mem_nil, or_false, forall_eq_or_imp, forall_eq]
  refine ⟨.atom _ _, .comp _ _ (by simp) ?_⟩
  simp only [List.mem_cons, List.not_mem_nil, or_false, forall_eq]
  exact .quant _ _ _ (.atom _ _)

/-- A conjunction with a false first part is evaluated without looking at the temporal part. -/
example : evT (fun _ _ => .ok false) (.comp (.bool .and) [.atom (.user "p") [], .comp .next [.top]]) = .ok false ∧
    evT (fun _ _ => .ok true) (.comp (.bool .and) [.atom (.user "p") [], .comp .next [.top]]) = .error .keyError := by
  simp [evT, evAllT]

/-- The code violates the full statement for re-bound variables: `forall x. G exists x. p(x)` becomes `G p(a) and G p(b)`. -/
theorem C115_qe_refuted : ¬ C115_qe_full := by
  intro H
  have hr : removeQuantifiersT exTDom .all (.quant .forall [.var ⟨"x", "o"⟩] (.comp .always
      [.quant .exists [.var ⟨"x", "o"⟩] (.atom (.user "p") [.var ⟨"x", "o"⟩])])) =
      .ok (.comp (.bool .and) [.comp .always [.atom (.user "p") [exTA]], .comp .always [.atom (.user "p") [exTB]]]) := by
    simp [removeQuantifiersT, tdepth, tdepths, qeTFuel, qeT, qeTs, QEMode.elim, expandT, enumerateGroundings, enumLoop, exTDom, exTA, exTB,
      cart, createSubst, subL, subLs, subTs, subT, Subst.visit, Subst.get?, creatorT, treeT]
  have := H exTDom .all _ _ (by simp [VarBindersL, VarBindersLs, VarBindersTs, VarBindersT]) hr Bool
    (fun t => { exTM t with pred := fun _ ds => ds = [true] }) (fun t u => ⟨rfl, rfl⟩)
    (fun t s cs hcs => exTM_ok.2 t s cs hcs) (fun _ => false) 0
  simp [SatL, SatLs, connMeaning, quantBlock, evalTs, evalT, Asg.set, exTA, exTB, exTM] at this

end Tarski

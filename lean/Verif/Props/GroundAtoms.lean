import Verif.GroundAtoms
import Verif.Semantics
import Verif.Model
import Verif.Equality
import Mathlib.Data.List.Forall2
import Mathlib.Tactic.Common
/-! C75: `transform_to_ground_atoms`. -/
namespace Tarski

/-! ### Specification -/

/-- The atom is ground and `t` is the tuple that describes it: `(on, a, b)` for `on(a, b)`, and `(f, c1, ..., cn, d)`
for `f(c1, ..., cn) = d` or `d = f(c1, ..., cn)`. -/
inductive TupleOf : Formula → List Name → Prop
  | pred (p : String) (cs : List Const) :
      TupleOf (.atom (.user p) (cs.map (fun c => .const c.name c.sort))) (.str p :: cs.map (·.name))
  | eqLeft (f : String) (cs : List Const) (d : Const) :
      TupleOf (.atom (.cmp .eq) [.app f (cs.map (fun c => .const c.name c.sort)), .const d.name d.sort])
        (.str f :: (cs.map (·.name) ++ [d.name]))
  | eqRight (f : String) (cs : List Const) (d : Const) :
      TupleOf (.atom (.cmp .eq) [.const d.name d.sort, .app f (cs.map (fun c => .const c.name c.sort))])
        (.str f :: (cs.map (·.name) ++ [d.name]))

/-- The formula is a conjunction, nested in any way, whose conjuncts from left to right are the given formulas, none of
which is a conjunction itself. -/
inductive ConjunctsAre : Formula → List Formula → Prop
  | atom (p : PSym) (ts : List Term) : ConjunctsAre (.atom p ts) [.atom p ts]
  | conj (k : Kind) (fs : List Formula) (ls : List (List Formula)) :
      List.Forall₂ ConjunctsAre fs ls → ConjunctsAre (.comp k .and fs) ls.flatten

mutual
/-- Builtin comparisons have two arguments (formulas.py:311-313 rejects anything else). -/
def BinaryCmps : Formula → Prop
  | .atom (.cmp _) ts => ts.length = 2
  | .comp _ _ fs => BinaryCmpsL fs
  | .quant _ _ f => BinaryCmps f
  | _ => True
def BinaryCmpsL : List Formula → Prop
  | [] => True
  | f :: fs => BinaryCmps f ∧ BinaryCmpsL fs
end

/-- The tuple is true: its first entry names a function (`isFn`) whose value on the middle entries is the last one, or a
predicate that holds of the remaining entries. Entries are looked up in the language by name. -/
def TupleTrue {D} (I : Interp D) (isFn : String → Bool) (obj : Name → Const) : List Name → Prop
  | .str s :: ns =>
    let v := ns.map (fun n => I.const (obj n).name (obj n).sort)
    if isFn s then ∃ us d, v = us ++ [d] ∧ I.fn s us = d else I.pred (.user s) v
  | _ => False

mutual
/-- Every constant of the formula is the one that the language has under its name. -/
def ResolvesT (obj : Name → Const) : Term → Prop
  | .const n s => obj n = ⟨n, s⟩
  | .app _ ts => ResolvesTs obj ts
  | _ => True
def ResolvesTs (obj : Name → Const) : List Term → Prop
  | [] => True
  | t :: ts => ResolvesT obj t ∧ ResolvesTs obj ts
end

mutual
/-- Symbols applied in the formula are functions resp. predicates of the language, whose names are disjoint
(fol.py:278-303), and its constants are looked up by name. -/
def ResolvesF (isFn : String → Bool) (obj : Name → Const) : Formula → Prop
  | .atom (.user p) ts => isFn p = false ∧ ResolvesTs obj ts
  | .atom (.cmp _) ts => ResolvesTs obj ts ∧ ∀ f us, Term.app f us ∈ ts → isFn f = true
  | .comp _ _ fs => ResolvesFs isFn obj fs
  | _ => True
def ResolvesFs (isFn : String → Bool) (obj : Name → Const) : List Formula → Prop
  | [] => True
  | f :: fs => ResolvesF isFn obj f ∧ ResolvesFs isFn obj fs
end

/-! ### Proofs -/

theorem unpackElems_ok {ts : List Term} {ns : List Name} : unpackElems ts = .ok ns ↔
    ∃ cs : List Const, ts = cs.map (fun c => .const c.name c.sort) ∧ ns = cs.map (·.name) := by
  induction ts generalizing ns with
  | nil =>
    simp only [unpackElems, Except.ok.injEq]
    constructor
    · rintro rfl; exact ⟨[], rfl, rfl⟩
    · rintro ⟨cs, h, rfl⟩; cases cs <;> simp_all
  | cons t ts ih =>
    have no : (∀ n s, t ≠ .const n s) → unpackElems (t :: ts) = .error .transformation →
        (unpackElems (t :: ts) = .ok ns ↔
          ∃ cs : List Const, t :: ts = cs.map (fun c => .const c.name c.sort) ∧ ns = cs.map (·.name)) := by
      intro h1 h2
      rw [h2]
      constructor
      · intro h; cases h
      · rintro ⟨cs, h, -⟩
        cases cs with
        | nil => simp at h
        | cons c cs => simp only [List.map_cons, List.cons.injEq] at h; exact absurd h.1 (h1 _ _)
    cases t with
    | var v => exact no (by intro n s h; cases h) rfl
    | app f us => exact no (by intro n s h; cases h) rfl
    | ite c a b => exact no (by intro n s h; cases h) rfl
    | const n s =>
      simp only [unpackElems]
      constructor
      · intro h
        cases hu : unpackElems ts with
        | error e => simp [hu] at h
        | ok ms =>
          obtain ⟨cs, rfl, rfl⟩ := ih.1 hu
          simp only [hu, Except.ok.injEq] at h
          subst h
          exact ⟨⟨n, s⟩ :: cs, rfl, rfl⟩
      · rintro ⟨cs, h, rfl⟩
        cases cs with
        | nil => simp at h
        | cons c cs =>
          simp only [List.map_cons, List.cons.injEq, Term.const.injEq] at h
          obtain ⟨⟨rfl, rfl⟩, rfl⟩ := h
          rw [ih.2 ⟨cs, rfl, rfl⟩]
          rfl

theorem unpackElems_error {ts : List Term} {e} (h : unpackElems ts = .error e) : e = .transformation := by
  induction ts with
  | nil => simp [unpackElems] at h
  | cons t ts ih =>
    cases t with
    | const n s =>
      simp only [unpackElems] at h
      cases hu : unpackElems ts with
      | error e' => simp only [hu, Except.error.injEq] at h; subst h; exact ih hu
      | ok ms => simp [hu] at h
    | _ => simp [unpackElems] at h; exact h.symm

theorem unpackAtom_error {p ts e} (h : unpackAtom p ts = .error e) : e = .transformation := by
  unfold unpackAtom at h
  cases p with
  | cmp c =>
    simp only at h
    split at h
    · cases h; rfl
    · split at h
      · rename_i f us d _ _
        cases hu : unpackElems us with
        | error e' => simp only [hu, Except.error.injEq] at h; subst h; exact unpackElems_error hu
        | ok ms => simp [hu] at h
      · cases h; rfl
  | user n =>
    simp only at h
    cases hu : unpackElems ts with
    | error e' => simp only [hu, Except.error.injEq] at h; subst h; exact unpackElems_error hu
    | ok ms => simp [hu] at h

theorem unpackAtom_ok {p ts t} (hb : BinaryCmps (.atom p ts)) : unpackAtom p ts = .ok t ↔ TupleOf (.atom p ts) t := by
  constructor
  · intro h
    cases p with
    | user n =>
      simp only [unpackAtom] at h
      cases hu : unpackElems ts with
      | error e' => simp [hu] at h
      | ok ms =>
        simp only [hu, Except.ok.injEq] at h
        subst h
        obtain ⟨cs, rfl, rfl⟩ := unpackElems_ok.1 hu
        exact .pred n cs
    | cmp c =>
      simp only [BinaryCmps] at hb
      obtain ⟨a, b, rfl⟩ := List.length_eq_two.1 hb
      simp only [unpackAtom] at h
      split at h
      · cases h
      rename_i hc
      have hc : c = .eq := by simpa using hc
      subst hc
      cases a with
      | app f us =>
        cases b with
        | const d s =>
          simp only [compoundsOf, constNamesOf] at h
          cases hu : unpackElems us with
          | error e' => simp [hu] at h
          | ok ms =>
            simp only [hu, Except.ok.injEq] at h
            subst h
            obtain ⟨cs, rfl, rfl⟩ := unpackElems_ok.1 hu
            exact .eqLeft f cs ⟨d, s⟩
        | _ => simp [compoundsOf, constNamesOf] at h
      | const d s =>
        cases b with
        | app f us =>
          simp only [compoundsOf, constNamesOf] at h
          cases hu : unpackElems us with
          | error e' => simp [hu] at h
          | ok ms =>
            simp only [hu, Except.ok.injEq] at h
            subst h
            obtain ⟨cs, rfl, rfl⟩ := unpackElems_ok.1 hu
            exact .eqRight f cs ⟨d, s⟩
        | _ => simp [compoundsOf, constNamesOf] at h
      | _ => cases b <;> simp [compoundsOf, constNamesOf] at h
  · intro h
    cases h with
    | pred p cs => simp only [unpackAtom]; rw [unpackElems_ok.2 ⟨cs, rfl, rfl⟩]
    | eqLeft f cs d => simp only [unpackAtom, compoundsOf, constNamesOf]; rw [unpackElems_ok.2 ⟨cs, rfl, rfl⟩]; rfl
    | eqRight f cs d => simp only [unpackAtom, compoundsOf, constNamesOf]; rw [unpackElems_ok.2 ⟨cs, rfl, rfl⟩]; rfl

mutual
theorem toGroundAtoms_spec : ∀ (φ : Formula) (ts : List (List Name)), BinaryCmps φ →
    (toGroundAtoms φ = .ok ts ↔ ∃ as, ConjunctsAre φ as ∧ List.Forall₂ TupleOf as ts)
  | .atom p us, ts, hb => by
    rw [toGroundAtoms]
    constructor
    · intro h
      cases hu : unpackAtom p us with
      | error e => simp [hu] at h
      | ok t =>
        simp only [hu, Except.ok.injEq] at h
        subst h
        exact ⟨_, .atom p us, .cons ((unpackAtom_ok hb).1 hu) .nil⟩
    · rintro ⟨as, h1, h2⟩
      cases h1
      cases h2 with
      | cons h3 h4 => cases h4; rw [(unpackAtom_ok hb).2 h3]
  | .top, ts, _ => by
    rw [toGroundAtoms]
    constructor
    · intro h; cases h
    · rintro ⟨as, h1, -⟩; cases h1
  | .bot, ts, _ => by
    rw [toGroundAtoms]
    constructor
    · intro h; cases h
    · rintro ⟨as, h1, -⟩; cases h1
  | .quant q vs f, ts, _ => by
    rw [toGroundAtoms]
    constructor
    · intro h; cases h
    · rintro ⟨as, h1, -⟩; cases h1
  | .comp k c fs, ts, hb => by
    rw [toGroundAtoms]
    split
    · rename_i hc
      subst hc
      rw [toGroundAtomsL_spec fs ts (by simpa [BinaryCmps] using hb)]
      constructor
      · rintro ⟨ls, h1, h2⟩; exact ⟨_, .conj k fs ls h1, h2⟩
      · rintro ⟨as, h1, h2⟩
        cases h1 with
        | conj _ _ ls h3 => exact ⟨ls, h3, h2⟩
    · rename_i hc
      constructor
      · intro h; cases h
      · rintro ⟨as, h1, -⟩; cases h1; exact absurd rfl hc
theorem toGroundAtomsL_spec : ∀ (fs : List Formula) (ts : List (List Name)), BinaryCmpsL fs →
    (toGroundAtomsL fs = .ok ts ↔ ∃ ls, List.Forall₂ ConjunctsAre fs ls ∧ List.Forall₂ TupleOf ls.flatten ts)
  | [], ts, _ => by
    rw [toGroundAtomsL]
    constructor
    · intro h; cases h; exact ⟨[], .nil, .nil⟩
    · rintro ⟨ls, h1, h2⟩; cases h1; cases h2; rfl
  | f :: fs, ts, hb => by
    rw [BinaryCmpsL] at hb
    rw [toGroundAtomsL]
    constructor
    · intro h
      cases ha : toGroundAtoms f with
      | error e => simp [ha] at h
      | ok a =>
        cases hl : toGroundAtomsL fs with
        | error e => simp [ha, hl] at h
        | ok b =>
          simp only [ha, hl, Except.ok.injEq] at h
          subst h
          obtain ⟨as, h1, h2⟩ := (toGroundAtoms_spec f a hb.1).1 ha
          obtain ⟨ls, h3, h4⟩ := (toGroundAtomsL_spec fs b hb.2).1 hl
          exact ⟨as :: ls, .cons h1 h3, by simpa using List.rel_append h2 h4⟩
    · rintro ⟨ls, h1, h2⟩
      cases h1 with
      | cons h3 h4 =>
        rename_i as ls
        simp only [List.flatten_cons] at h2
        obtain ⟨a, b, h5, h6, rfl⟩ : ∃ a b, List.Forall₂ TupleOf as a ∧ List.Forall₂ TupleOf ls.flatten b ∧ ts = a ++ b := by
          refine ⟨ts.take as.length, ts.drop as.length, ?_, ?_, (List.take_append_drop _ _).symm⟩
          · have := List.forall₂_take as.length h2; simpa using this
          · have := List.forall₂_drop as.length h2; simpa using this
        rw [(toGroundAtoms_spec f a hb.1).2 ⟨as, h3, h5⟩, (toGroundAtomsL_spec fs b hb.2).2 ⟨ls, h4, h6⟩]
end

mutual
theorem toGroundAtoms_error : ∀ (φ : Formula) (e : Err), toGroundAtoms φ = .error e → e = .transformation
  | .atom p us, e, h => by
    rw [toGroundAtoms] at h
    cases hu : unpackAtom p us with
    | error e' => simp only [hu, Except.error.injEq] at h; subst h; exact unpackAtom_error hu
    | ok t => simp [hu] at h
  | .top, e, h => by rw [toGroundAtoms] at h; cases h; rfl
  | .bot, e, h => by rw [toGroundAtoms] at h; cases h; rfl
  | .quant q vs f, e, h => by rw [toGroundAtoms] at h; cases h; rfl
  | .comp k c fs, e, h => by
    rw [toGroundAtoms] at h
    split at h
    · exact toGroundAtomsL_error fs e h
    · cases h; rfl
theorem toGroundAtomsL_error : ∀ (fs : List Formula) (e : Err), toGroundAtomsL fs = .error e → e = .transformation
  | [], e, h => by rw [toGroundAtomsL] at h; cases h
  | f :: fs, e, h => by
    rw [toGroundAtomsL] at h
    cases ha : toGroundAtoms f with
    | error e' => simp only [ha, Except.error.injEq] at h; subst h; exact toGroundAtoms_error f _ ha
    | ok a =>
      cases hl : toGroundAtomsL fs with
      | error e' => simp only [ha, hl, Except.error.injEq] at h; subst h; exact toGroundAtomsL_error fs _ hl
      | ok b => simp [ha, hl] at h
end

/-- C75: the transformation succeeds exactly on nested conjunctions of ground atoms, and then returns the tuples of
these atoms, from left to right, none missing and none repeated. -/
theorem C75_tuples (φ : Formula) (hb : BinaryCmps φ) (ts : List (List Name)) :
    toGroundAtoms φ = .ok ts ↔ ∃ as, ConjunctsAre φ as ∧ List.Forall₂ TupleOf as ts :=
  toGroundAtoms_spec φ ts hb

/-- C75: on every other formula it raises `TransformationError`, and never any other exception. -/
theorem C75_rejects (φ : Formula) (hb : BinaryCmps φ) :
    toGroundAtoms φ = .error .transformation ↔ ¬ ∃ as ts, ConjunctsAre φ as ∧ List.Forall₂ TupleOf as ts := by
  cases h : toGroundAtoms φ with
  | ok ts =>
    simp only [reduceCtorEq, false_iff, not_not]
    obtain ⟨as, h1⟩ := (C75_tuples φ hb ts).1 h
    exact ⟨as, ts, h1⟩
  | error e =>
    have := toGroundAtoms_error φ e h
    subst this
    simp only [true_iff]
    rintro ⟨as, ts, h1⟩
    rw [(C75_tuples φ hb ts).2 ⟨as, h1⟩] at h
    cases h

theorem resolves_consts {D} (I : Interp D) (obj : Name → Const) (σ : Asg D) : ∀ cs : List Const,
    ResolvesTs obj (cs.map (fun c => .const c.name c.sort)) →
    (cs.map (·.name)).map (fun n => I.const (obj n).name (obj n).sort) =
      evalTs I (cs.map (fun c => .const c.name c.sort)) σ
  | [], _ => by simp [evalTs]
  | c :: cs, h => by
    simp only [List.map_cons, ResolvesTs, ResolvesT] at h
    have := resolves_consts I obj σ cs h.2
    simp only [List.map_cons, evalTs, evalT, this, h.1]

theorem tupleOf_sem {D} (I : Interp D) (hI : ∀ a b, I.pred (.cmp .eq) [a, b] ↔ a = b) (isFn : String → Bool)
    (obj : Name → Const) (σ : Asg D) {a : Formula} {t : List Name} (h : TupleOf a t) (hr : ResolvesF isFn obj a) :
    Sat I a σ ↔ TupleTrue I isFn obj t := by
  cases h with
  | pred p cs =>
    rw [ResolvesF] at hr
    simp only [TupleTrue, hr.1, Bool.false_eq_true, if_false, Sat]
    rw [resolves_consts I obj σ cs hr.2]
  | eqLeft f cs d =>
    rw [ResolvesF] at hr
    have hf := hr.2 f _ (List.mem_cons_self ..)
    have h1 := hr.1
    simp only [ResolvesTs, ResolvesT] at h1
    simp only [TupleTrue, hf, if_true, Sat, evalTs, evalT, hI, List.map_append, List.map_cons, List.map_nil, h1.2.1]
    rw [resolves_consts I obj σ cs h1.1]
    constructor
    · intro h; exact ⟨_, _, rfl, h⟩
    · rintro ⟨us, e, h2, h3⟩
      have h4 := List.append_inj' h2 rfl
      simp only [List.cons.injEq, and_true] at h4
      rw [h4.1, h4.2]; exact h3
  | eqRight f cs d =>
    rw [ResolvesF] at hr
    have hf := hr.2 f _ (.tail _ (.head _))
    have h1 := hr.1
    simp only [ResolvesTs, ResolvesT] at h1
    simp only [TupleTrue, hf, if_true, Sat, evalTs, evalT, hI, List.map_append, List.map_cons, List.map_nil, h1.1]
    rw [resolves_consts I obj σ cs h1.2.1]
    constructor
    · intro h; exact ⟨_, _, rfl, h.symm⟩
    · rintro ⟨us, e, h2, h3⟩
      have h4 := List.append_inj' h2 rfl
      simp only [List.cons.injEq, and_true] at h4
      rw [h4.1, h4.2]; exact h3.symm

mutual
theorem conjuncts_sem {D} (I : Interp D) (isFn : String → Bool) (obj : Name → Const) (σ : Asg D) :
    ∀ (φ : Formula) (as : List Formula), ConjunctsAre φ as → ResolvesF isFn obj φ →
      (Sat I φ σ ↔ ∀ a ∈ as, Sat I a σ) ∧ ∀ a ∈ as, ResolvesF isFn obj a
  | .atom p ts, as, h, hr => by cases h; simpa using hr
  | .top, as, h, hr => by cases h
  | .bot, as, h, hr => by cases h
  | .quant q vs f, as, h, hr => by cases h
  | .comp k c fs, as, h, hr => by
    cases h with
    | conj _ _ ls h1 =>
      have := conjunctsL_sem I isFn obj σ fs ls h1 (by simpa [ResolvesF] using hr)
      simp only [Sat, this.1]
      exact ⟨trivial, this.2⟩
theorem conjunctsL_sem {D} (I : Interp D) (isFn : String → Bool) (obj : Name → Const) (σ : Asg D) :
    ∀ (fs : List Formula) (ls : List (List Formula)), List.Forall₂ ConjunctsAre fs ls → ResolvesFs isFn obj fs →
      (SatAll I fs σ ↔ ∀ a ∈ ls.flatten, Sat I a σ) ∧ ∀ a ∈ ls.flatten, ResolvesF isFn obj a
  | [], ls, h, hr => by cases h; simp [SatAll]
  | f :: fs, ls, h, hr => by
    cases h with
    | cons h1 h2 =>
      rename_i l ls
      rw [ResolvesFs] at hr
      have a1 := conjuncts_sem I isFn obj σ f l h1 hr.1
      have a2 := conjunctsL_sem I isFn obj σ fs ls h2 hr.2
      simp only [SatAll, a1.1, a2.1, List.flatten_cons, List.mem_append, or_imp, forall_and]
      exact ⟨trivial, a1.2, a2.2⟩
end

/-- C75: the tuples say the same as the formula: in every interpretation in which `=` is equality, the formula is true
exactly if every tuple, read back through the symbols and constants of the language, is true. -/
theorem C75_equivalent {D} (I : Interp D) (hI : ∀ a b, I.pred (.cmp .eq) [a, b] ↔ a = b) (isFn : String → Bool)
    (obj : Name → Const) (φ : Formula) (hb : BinaryCmps φ) (hr : ResolvesF isFn obj φ) (ts : List (List Name))
    (h : toGroundAtoms φ = .ok ts) (σ : Asg D) : Sat I φ σ ↔ ∀ t ∈ ts, TupleTrue I isFn obj t := by
  obtain ⟨as, h1, h2⟩ := (C75_tuples φ hb ts).1 h
  obtain ⟨h3, h4⟩ := conjuncts_sem I isFn obj σ φ as h1 hr
  rw [h3]
  clear h3 h1 h
  induction h2 with
  | nil => simp
  | cons h5 h6 ih =>
    have h7 := tupleOf_sem I hI isFn obj σ h5 (h4 _ (.head _))
    simp only [List.mem_cons, forall_eq_or_imp, h7, ih (fun a ha => h4 a (.tail _ ha))]

/-! ### Non-vacuity -/

/-- `on(b1, b2) & (clear(b1) & loc(b1) = table & b2 = below(b1))`. -/
def exGround : Formula :=
  land [.atom (.user "on") [.const (.str "b1") "block", .const (.str "b2") "block"],
    .atom (.user "clear") [.const (.str "b1") "block"],
    .atom (.cmp .eq) [.app "loc" [.const (.str "b1") "block"], .const (.str "table") "place"],
    .atom (.cmp .eq) [.const (.str "b2") "block", .app "below" [.const (.str "b1") "block"]]]

example : toGroundAtoms exGround = .ok [[.str "on", .str "b1", .str "b2"], [.str "clear", .str "b1"],
    [.str "loc", .str "b1", .str "table"], [.str "below", .str "b1", .str "b2"]] := rfl

example : BinaryCmps exGround := by simp [exGround, land, createCompound, toBinaryTree, BinaryCmps, BinaryCmpsL]

example : ResolvesF (fun f => f == "loc" || f == "below")
    (fun n => ⟨n, if n = .str "table" then "place" else "block"⟩) exGround := by
  simp [exGround, land, createCompound, toBinaryTree, ResolvesF, ResolvesFs, ResolvesTs, ResolvesT]

/-- A negated atom, an atom with a variable, and an equality between two compound terms are rejected. -/
example : toGroundAtoms (neg (.atom (.user "p") [])) = .error .transformation ∧
    toGroundAtoms (land [.atom (.user "p") [], .atom (.user "q") [.var ⟨"x", "block"⟩]]) = .error .transformation ∧
    toGroundAtoms (.atom (.cmp .eq) [.app "f" [], .app "g" []]) = .error .transformation := ⟨rfl, rfl, rfl⟩

end Tarski

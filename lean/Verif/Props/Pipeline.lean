import Verif.Pipeline
import Verif.Props.LPGround
import Verif.Props.ActionGround
import Verif.Props.Effects
import Verif.Props.SearchText
/-! C117: from lifted actions to the answer of the search. -/
namespace Tarski

/-! ### Specification -/

/-- Executing a sequence of action instances (the name of an action and the names of its arguments) from a state: each must be
applicable, and an atom is true afterwards if it is added, or was true and is not deleted. -/
inductive LiftedRun (X : LPInput) (R : CmpRel) : PState → List (String × List String) → PState → Prop where
  | nil (S : PState) : LiftedRun X R S [] S
  | cons (S S' S'' : PState) (n : String) (a : Schema) (σ : Asg String) (rest : List (String × List String)) :
      (n, a) ∈ X.actions → ApplicableIn (stateInterp X.dom R S) a σ →
      (∀ p as, S' p as ↔ (∃ e ∈ a.effs, Causes (stateInterp X.dom R S) true e σ p as) ∨
        (S p as ∧ ¬ ∃ e ∈ a.effs, Causes (stateInterp X.dom R S) false e σ p as)) →
      LiftedRun X R S' rest S'' → LiftedRun X R S ((n, a.params.map σ) :: rest) S''

/-- The model and the state make the same atoms true. -/
def Represents (L : MLang) (m : MState) (S : PState) : Prop :=
  ∀ p as, S p as ↔ ∃ pt, m.holds L p pt = true ∧ as = pt.map fun c => nameText c.name

/-- A parameter, or a constant of the language. -/
def StripsTerm (X : LPInput) (ps : List Var) : Term → Prop
  | .var v => v ∈ ps
  | .const n s => (n, s) ∈ X.consts
  | _ => False

mutual
/-- A condition without quantifiers and functions. -/
def StripsCond (X : LPInput) (ps : List Var) : Formula → Prop
  | .top => True
  | .bot => True
  | .atom (.user _) ts => ∀ t ∈ ts, StripsTerm X ps t
  | .atom (.cmp c) ts => (c = .eq ∨ c = .ne) ∧ ts.length = 2 ∧ ∀ t ∈ ts, StripsTerm X ps t
  | .comp _ .not fs => fs.length = 1 ∧ StripsConds X ps fs
  | .comp _ _ fs => StripsConds X ps fs
  | .quant _ _ _ => False
def StripsConds (X : LPInput) (ps : List Var) : List Formula → Prop
  | [] => True
  | f :: fs => StripsCond X ps f ∧ StripsConds X ps fs
end

/-- The sort of a variable or constant. -/
def sortOfTerm : Term → String
  | .var v => v.sort
  | .const _ s => s
  | _ => ""

/-- An unconditional effect that adds an atom, whose arguments fit the sorts of the predicate, or deletes one. -/
def StripsEff (X : LPInput) (L : MLang) (ps : List Var) (e : Effect) : Prop :=
  ∃ p ts, (∀ t ∈ ts, StripsTerm X ps t) ∧ (e = .del .top (.user p) ts ∨
    e = .add .top (.user p) ts ∧ List.Forall₂ (fun t s => L.isSub (sortOfTerm t) s = true) ts (L.psorts p))

/-- A STRIPS problem: the language `L` with the constants `consts`, the initial state `init` and the actions `acts`, and `X` is what
the compiler to logic programs reads of them. -/
structure StripsTask (X : LPInput) (L : MLang) (consts : Name → Option Const) (init : MState) (acts : List (String × PAction)) : Prop where
  dict : ∀ n c, consts n = some c ↔ c.name = n ∧ (c.name, c.sort) ∈ X.consts
  sub : ∀ n s s' t, (n, s) ∈ X.consts → UnderSort X n s' → L.isSub s' t = true → L.isSub s t = true
  actions : X.actions = acts.map fun x => (x.1, ⟨x.2.params, x.2.pre, x.2.effs⟩)
  initAtoms : ∀ p ts, (p, ts) ∈ X.initAtoms ↔ ∃ pt, init.holds L p pt = true ∧ ts = pt.map Const.toTerm
  initConsts : ∀ p pt, init.holds L p pt = true → ∀ c ∈ pt, (c.name, c.sort) ∈ X.consts
  params : ∀ x ∈ acts, x.2.params.Nodup
  sorts : ∀ x ∈ acts, ∀ v ∈ x.2.params, v.sort ∈ X.sorts ∧ X.interval v.sort = false
  pre : ∀ x ∈ acts, StripsCond X x.2.params x.2.pre
  effs : ∀ x ∈ acts, ∀ e ∈ x.2.effs, StripsEff X L x.2.params e
  goal : StripsCond X [] X.goal

/-- The symbols and constants of the problem can be told apart by what is printed (see C83). -/
structure PrintedApart (X : LPInput) (L : MLang) (init : MState) (acts : List (String × PAction)) (N : String → Prop) (K V : Const → Prop) : Prop where
  apart : ToldApart N K V
  initial : MadeOf L N K V init
  adds : ∀ x ∈ acts, ∀ p ts, Effect.add .top (.user p) ts ∈ x.2.effs → N p
  consts : ∀ n s, (n, s) ∈ X.consts → K ⟨n, s⟩

/-! ### Constants -/

section
variable {X : LPInput} {L : MLang} {consts : Name → Option Const} {init : MState} {acts : List (String × PAction)}

/-- Declared constants. -/
def DeclaredIn (X : LPInput) (c : Const) : Prop := (c.name, c.sort) ∈ X.consts

theorem StripsTask.text_inj (T : StripsTask X L consts init acts) (W : LPWellFormed X) {c d : Const} (hc : DeclaredIn X c) (hd : DeclaredIn X d)
    (h : nameText c.name = nameText d.name) : c = d := by
  obtain ⟨t, ht, -, -⟩ := W.consts _ _ hc
  obtain ⟨u, hu, -, -⟩ := W.consts _ _ hd
  rw [ht, hu] at h
  simp only [nameText] at h
  subst h
  have h1 := (T.dict (.str t) c).2 ⟨ht, hc⟩
  have h2 := (T.dict (.str t) d).2 ⟨hu, hd⟩
  rw [h1] at h2
  exact Option.some.inj h2

theorem StripsTask.texts_inj (T : StripsTask X L consts init acts) (W : LPWellFormed X) : ∀ {cs ds : List Const}, (∀ c ∈ cs, DeclaredIn X c) →
    (∀ d ∈ ds, DeclaredIn X d) → cs.map (fun c => nameText c.name) = ds.map (fun c => nameText c.name) → cs = ds
  | [], [], _, _, _ => rfl
  | [], _ :: _, _, _, h => by simp at h
  | _ :: _, [], _, _, h => by simp at h
  | c :: cs, d :: ds, hc, hd, h => by
    simp only [List.map_cons, List.cons.injEq] at h
    rw [T.text_inj W (hc c (by simp)) (hd d (by simp)) h.1,
      T.texts_inj W (fun x hx => hc x (by simp [hx])) (fun x hx => hd x (by simp [hx])) h.2]

/-! ### Evaluating ground conditions -/

theorem pl_evTerms_consts (m : MState) : ∀ ts : List Term, (∀ t ∈ ts, StripsTerm X [] t) →
    ∃ pt : List Const, evTerms L m noSigma .eval ts = .ok pt ∧ ts = pt.map Const.toTerm ∧ ∀ c ∈ pt, DeclaredIn X c
  | [], _ => ⟨[], rfl, rfl, by simp⟩
  | t :: ts, h => by
    obtain ⟨pt, h1, h2, h3⟩ := pl_evTerms_consts m ts (fun x hx => h x (by simp [hx]))
    have ht := h t (by simp)
    match t, ht with
    | .const n s, ht =>
      refine ⟨⟨n, s⟩ :: pt, ?_, by rw [h2]; rfl, ?_⟩
      · simp only [evTerms, evTerm, h1]
      · intro c hc
        rcases List.mem_cons.1 hc with rfl | hc
        · exact ht
        · exact h3 c hc
    | .var v, ht => simp [StripsTerm] at ht

theorem evalTs_consts (R : CmpRel) (S : PState) (σ : Asg String) (pt : List Const) :
    evalTs (stateInterp X.dom R S) (pt.map Const.toTerm) σ = pt.map fun c => nameText c.name := by
  induction pt with
  | nil => rfl
  | cons c pt ih => simp only [List.map_cons, evalTs, ih]; rfl

/-- What is needed of the model of a state. -/
structure Tracks (X : LPInput) (L : MLang) (m : MState) (S : PState) : Prop where
  same : Represents L m S
  declared : ∀ p pt, m.holds L p pt = true → ∀ c ∈ pt, DeclaredIn X c

theorem Tracks.holds (T : StripsTask X L consts init acts) (W : LPWellFormed X) {m : MState} {S : PState} (h : Tracks X L m S)
    {p : String} {pt : List Const} (hd : ∀ c ∈ pt, DeclaredIn X c) :
    m.holds L p pt = true ↔ S p (pt.map fun c => nameText c.name) := by
  rw [h.same]
  constructor
  · exact fun hh => ⟨pt, hh, rfl⟩
  · rintro ⟨qt, hq, e⟩
    rw [T.texts_inj W hd (h.declared p qt hq) e]
    exact hq

mutual
theorem eval_cond (T : StripsTask X L consts init acts) (W : LPWellFormed X) (R : CmpRel) {m : MState} {S : PState} (h : Tracks X L m S)
    (σ : Asg String) : ∀ f : Formula, StripsCond X [] f →
    ∃ b, evFormula L m noSigma f = .ok b ∧ (b = true ↔ Sat (stateInterp X.dom R S) f σ)
  | .top, _ => ⟨true, rfl, by simp [Sat]⟩
  | .bot, _ => ⟨false, rfl, by simp [Sat]⟩
  | .atom (.user p) ts, hf => by
    obtain ⟨pt, h1, h2, h3⟩ := pl_evTerms_consts (L := L) m ts hf
    refine ⟨m.holds L p pt, by simp only [evFormula, h1], ?_⟩
    rw [h.holds T W h3, h2]
    simp only [Sat, evalTs_consts]
    rfl
  | .atom (.cmp c) ts, hf => by
    obtain ⟨hc, hl, ha⟩ := hf
    obtain ⟨pt, h1, h2, h3⟩ := pl_evTerms_consts (L := L) m ts ha
    have hl' : pt.length = 2 := by rw [h2] at hl; simpa using hl
    match pt, hl' with
    | [a, b], _ =>
      have ha := h3 a (by simp)
      have hb := h3 b (by simp)
      have key : a.name = b.name ↔ nameText a.name = nameText b.name :=
        ⟨fun e => by rw [e], fun e => by rw [T.text_inj W ha hb e]⟩
      have hs : Sat (stateInterp X.dom R S) (.atom (.cmp c) ts) σ ↔ R.rel c (nameText a.name) (nameText b.name) := by
        rw [h2]; simp only [Sat, evalTs_consts]; rfl
      rw [hs]
      rcases hc with rfl | rfl
      · exact ⟨decide (a.name = b.name), by simp only [evFormula, h1, cmpNames], by rw [decide_eq_true_eq, R.eq_iff, key]⟩
      · refine ⟨decide (a.name ≠ b.name), by simp only [evFormula, h1, cmpNames], ?_⟩
        rw [decide_eq_true_eq, show Cmp.ne = Cmp.complement .eq from rfl, R.compl, R.eq_iff, Ne, key]
  | .comp k .and fs, hf => by
    obtain ⟨b, h1, h2⟩ := eval_all T W R h σ fs hf
    exact ⟨b, by simpa only [evFormula] using h1, by rw [h2]; simp only [Sat]⟩
  | .comp k .or fs, hf => by
    obtain ⟨b, h1, h2⟩ := eval_any T W R h σ fs hf
    exact ⟨b, by simpa only [evFormula] using h1, by rw [h2]; simp only [Sat]⟩
  | .comp k .not [], hf => by simp [StripsCond] at hf
  | .comp k .not (f :: fs), hf => by
    obtain ⟨hl, hf, -⟩ := hf
    obtain ⟨b, h1, h2⟩ := eval_cond T W R h σ f hf
    have : fs = [] := by simpa using hl
    subst this
    refine ⟨!b, by simp only [evFormula, h1], ?_⟩
    rw [Bool.not_eq_true', ← Bool.not_eq_true, h2]
    simp [Sat, SatAll]
  | .quant _ _ _, hf => by simp [StripsCond] at hf
theorem eval_all (T : StripsTask X L consts init acts) (W : LPWellFormed X) (R : CmpRel) {m : MState} {S : PState} (h : Tracks X L m S)
    (σ : Asg String) : ∀ fs : List Formula, StripsConds X [] fs →
    ∃ b, evAll L m noSigma fs = .ok b ∧ (b = true ↔ SatAll (stateInterp X.dom R S) fs σ)
  | [], _ => ⟨true, rfl, by simp [SatAll]⟩
  | f :: fs, hf => by
    obtain ⟨b, h1, h2⟩ := eval_cond T W R h σ f hf.1
    obtain ⟨b', h3, h4⟩ := eval_all T W R h σ fs hf.2
    cases b with
    | true => exact ⟨b', by simp only [evAll, h1, h3], by simp only [SatAll, h4, ← h2, true_and]⟩
    | false => exact ⟨false, by simp only [evAll, h1], by simp [SatAll, ← h2]⟩
theorem eval_any (T : StripsTask X L consts init acts) (W : LPWellFormed X) (R : CmpRel) {m : MState} {S : PState} (h : Tracks X L m S)
    (σ : Asg String) : ∀ fs : List Formula, StripsConds X [] fs →
    ∃ b, evAny L m noSigma fs = .ok b ∧ (b = true ↔ SatAny (stateInterp X.dom R S) fs σ)
  | [], _ => ⟨false, rfl, by simp [SatAny]⟩
  | f :: fs, hf => by
    obtain ⟨b, h1, h2⟩ := eval_cond T W R h σ f hf.1
    obtain ⟨b', h3, h4⟩ := eval_any T W R h σ fs hf.2
    cases b with
    | true => exact ⟨true, by simp only [evAny, h1], by simp [SatAny, ← h2]⟩
    | false => exact ⟨b', by simp only [evAny, h1, h3], by simp [SatAny, ← h2, h4]⟩
end

/-! ### Instances -/

/-- The constants `cs` are given to the parameters `ps`, as the assignment `τ` does. -/
def Binds (X : LPInput) (ps : List Var) (cs : List Const) (τ : Asg String) : Prop :=
  List.Forall₂ (fun v c => τ v = nameText c.name ∧ DeclaredIn X c ∧ UnderSort X c.name v.sort) ps cs

theorem underSort_const {n : Name} {s : String} (h : UnderSort X n s) : ∃ s', (n, s') ∈ X.consts := by
  induction h with
  | base s h => exact ⟨s, h⟩
  | step _ _ _ _ _ _ ih => exact ih

/-- A typed assignment to the parameters is given by constants. -/
theorem binds_exists (W : LPWellFormed X) {τ : Asg String} : ∀ {ps : List Var}, (∀ v ∈ ps, v.sort ∈ X.sorts ∧ X.interval v.sort = false) →
    (∀ v ∈ ps, OfSort X.dom v.sort (τ v)) → ∃ cs, Binds X ps cs τ
  | [], _, _ => ⟨[], .nil⟩
  | v :: ps, hs, h => by
    obtain ⟨cs, hcs⟩ := binds_exists W (ps := ps) (fun w hw => hs w (by simp [hw])) (fun w hw => h w (by simp [hw]))
    obtain ⟨ds, n, so, hd, hm, ht⟩ := h v (by simp)
    obtain ⟨es, he, hiff⟩ := W.doms v.sort (hs v (by simp)).1 (hs v (by simp)).2
    rw [hd] at he
    cases he
    have hu := (hiff n).1 ⟨so, hm⟩
    obtain ⟨s', hs'⟩ := underSort_const hu
    exact ⟨⟨n, s'⟩ :: cs, .cons ⟨ht.symm, hs', hu⟩ hcs⟩

/-- And the other way round. -/
theorem binds_typed (W : LPWellFormed X) {τ : Asg String} {ps : List Var} {cs : List Const}
    (hs : ∀ v ∈ ps, v.sort ∈ X.sorts ∧ X.interval v.sort = false) (h : Binds X ps cs τ) : ∀ v ∈ ps, OfSort X.dom v.sort (τ v) := by
  intro v hv
  obtain ⟨c, -, h1, h2, h3⟩ : ∃ c ∈ cs, τ v = nameText c.name ∧ DeclaredIn X c ∧ UnderSort X c.name v.sort := by
    clear hs
    unfold Binds at h
    induction h with
    | nil => simp at hv
    | @cons w c ps cs hw _ ih =>
      rcases List.mem_cons.1 hv with rfl | hv
      · exact ⟨c, by simp, hw⟩
      · obtain ⟨d, hd, h⟩ := ih hv
        exact ⟨d, by simp [hd], h⟩
  obtain ⟨es, he, hiff⟩ := W.doms v.sort (hs v hv).1 (hs v hv).2
  obtain ⟨so, hso⟩ := (hiff c.name).2 h3
  exact ⟨es, c.name, so, he, hso, h1.symm⟩

theorem inst_term (T : StripsTask X L consts init acts) {ps : List Var} {cs : List Const} {τ : Asg String} (hn : ps.Nodup)
    (hb : Binds X ps cs τ) (t : Term) (ht : StripsTerm X ps t) :
    ∃ c : Const, subT (instSubst ps cs) t = c.toTerm ∧ DeclaredIn X c ∧
      (∀ (I : Interp String), (∀ n s, I.const n s = nameText n) → evalT I t τ = nameText c.name) ∧
      ∀ ty, L.isSub (sortOfTerm t) ty = true → L.isSub c.sort ty = true := by
  match t, ht with
  | .const n s, ht =>
    refine ⟨⟨n, s⟩, ?_, ht, fun I hI => by simp only [evalT, hI], fun ty h => h⟩
    simp only [subT, visit_nonvar (instSubst_keys ps cs) (t := .const n s) (by simp)]
    rfl
  | .var v, ht =>
    have hl : ps.length = cs.length := List.Forall₂.length_eq hb
    obtain ⟨i, hi, rfl⟩ := List.getElem_of_mem ht
    have h1 := (List.forall₂_iff_get.1 (instSubst_get? hn hl)).2 i hi (hl ▸ hi)
    have h2 := (List.forall₂_iff_get.1 hb).2 i hi (hl ▸ hi)
    simp only [List.get_eq_getElem] at h1 h2
    refine ⟨cs[i]'(hl ▸ hi), ?_, h2.2.1, fun I _ => by simp only [evalT, h2.1], fun ty h => T.sub _ _ _ _ h2.2.1 h2.2.2 h⟩
    simp only [subT, Subst.visit, h1, Option.getD_some]
    rfl

theorem inst_terms (T : StripsTask X L consts init acts) {ps : List Var} {cs : List Const} {τ : Asg String} (hn : ps.Nodup)
    (hb : Binds X ps cs τ) : ∀ ts : List Term, (∀ t ∈ ts, StripsTerm X ps t) →
    ∃ pt : List Const, subTs (instSubst ps cs) ts = pt.map Const.toTerm ∧ (∀ c ∈ pt, DeclaredIn X c) ∧
      (∀ (I : Interp String), (∀ n s, I.const n s = nameText n) → evalTs I ts τ = pt.map fun c => nameText c.name) ∧
      ∀ ss, List.Forall₂ (fun t s => L.isSub (sortOfTerm t) s = true) ts ss → List.Forall₂ (fun (c : Const) s => L.isSub c.sort s = true) pt ss
  | [], _ => ⟨[], rfl, by simp, fun _ _ => rfl, fun ss h => by cases h; exact .nil⟩
  | t :: ts, h => by
    obtain ⟨c, h1, h2, h3, h4⟩ := inst_term T hn hb t (h t (by simp))
    obtain ⟨pt, g1, g2, g3, g4⟩ := inst_terms T hn hb ts (fun x hx => h x (by simp [hx]))
    refine ⟨c :: pt, by simp only [subTs, h1, g1, List.map_cons], ?_, fun I hI => by simp only [evalTs, h3 I hI, g3 I hI, List.map_cons], ?_⟩
    · intro d hd
      rcases List.mem_cons.1 hd with rfl | hd
      · exact h2
      · exact g2 d hd
    · intro ss hs
      cases hs with
      | cons hs1 hs2 => exact .cons (h4 _ hs1) (g4 _ hs2)

theorem inst_strips (T : StripsTask X L consts init acts) {ps : List Var} {cs : List Const} {τ : Asg String} (hn : ps.Nodup)
    (hb : Binds X ps cs τ) {ts : List Term} (h : ∀ t ∈ ts, StripsTerm X ps t) : ∀ t ∈ subTs (instSubst ps cs) ts, StripsTerm X [] t := by
  obtain ⟨pt, g1, g2, -, -⟩ := inst_terms T hn hb ts h
  rw [g1]
  intro t ht
  obtain ⟨c, hc, rfl⟩ := List.mem_map.1 ht
  exact g2 c hc

theorem subTs_length (s : Subst) (ts : List Term) : (subTs s ts).length = ts.length := by
  induction ts with
  | nil => rfl
  | cons t ts ih => simp only [subTs, List.length_cons, ih]

theorem subFs_length (s : Subst) (fs : List Formula) : (subFs s fs).length = fs.length := by
  induction fs with
  | nil => rfl
  | cons t ts ih => simp only [subFs, List.length_cons, ih]

mutual
theorem inst_cond (T : StripsTask X L consts init acts) {ps : List Var} {cs : List Const} {τ : Asg String} (hn : ps.Nodup)
    (hb : Binds X ps cs τ) : ∀ f : Formula, StripsCond X ps f → StripsCond X [] (subF (instSubst ps cs) f)
  | .top, _ => trivial
  | .bot, _ => trivial
  | .atom (.user p) ts, h => by
    simp only [subF, StripsCond]
    exact inst_strips T hn hb h
  | .atom (.cmp c) ts, h => by
    simp only [subF, StripsCond]
    exact ⟨h.1, by rw [subTs_length]; exact h.2.1, inst_strips T hn hb h.2.2⟩
  | .comp k .not fs, h => by
    simp only [subF, StripsCond]
    exact ⟨by rw [subFs_length]; exact h.1, inst_conds T hn hb fs h.2⟩
  | .comp k .and fs, h => by
    simp only [subF, StripsCond]
    exact inst_conds T hn hb fs h
  | .comp k .or fs, h => by
    simp only [subF, StripsCond]
    exact inst_conds T hn hb fs h
  | .quant _ _ _, h => by simp [StripsCond] at h
theorem inst_conds (T : StripsTask X L consts init acts) {ps : List Var} {cs : List Const} {τ : Asg String} (hn : ps.Nodup)
    (hb : Binds X ps cs τ) : ∀ fs : List Formula, StripsConds X ps fs → StripsConds X [] (subFs (instSubst ps cs) fs)
  | [], _ => trivial
  | f :: fs, h => ⟨inst_cond T hn hb f h.1, inst_conds T hn hb fs h.2⟩
end

theorem stripsConds_iff {ps : List Var} {fs : List Formula} : StripsConds X ps fs ↔ ∀ f ∈ fs, StripsCond X ps f := by
  induction fs with
  | nil => simp [StripsConds]
  | cons f fs ih => simp [StripsConds, ih]

mutual
theorem flattenAux_strips {ps : List Var} (c : Conn) (hc : c ≠ .not) : ∀ f : Formula, StripsCond X ps f → ∀ g ∈ flattenAux c f, StripsCond X ps g
  | .top, h, g, hg => by simp only [flattenAux, List.mem_singleton] at hg; exact hg ▸ h
  | .bot, h, g, hg => by simp only [flattenAux, List.mem_singleton] at hg; exact hg ▸ h
  | .atom p ts, h, g, hg => by simp only [flattenAux, List.mem_singleton] at hg; exact hg ▸ h
  | .quant _ _ _, h, g, hg => by simp only [flattenAux, List.mem_singleton] at hg; exact hg ▸ h
  | .comp k d fs, h, g, hg => by
    simp only [flattenAux] at hg
    split at hg
    · rename_i e
      subst e
      refine flattenAuxs_strips d hc fs ?_ g hg
      cases d with
      | not => exact absurd rfl hc
      | and => exact h
      | or => exact h
    · simp only [List.mem_singleton] at hg; exact hg ▸ h
theorem flattenAuxs_strips {ps : List Var} (c : Conn) (hc : c ≠ .not) : ∀ fs : List Formula, StripsConds X ps fs → ∀ g ∈ flattenAuxs c fs, StripsCond X ps g
  | [], _, g, hg => by simp [flattenAuxs] at hg
  | f :: fs, h, g, hg => by
    simp only [flattenAuxs, List.mem_append] at hg
    rcases hg with hg | hg
    · exact flattenAux_strips c hc f h.1 g hg
    · exact flattenAuxs_strips c hc fs h.2 g hg
end

theorem flatten_strips {ps : List Var} {f : Formula} (h : StripsCond X ps f) : StripsCond X ps (flatten f) := by
  match f, h with
  | .comp k .and fs, h => exact stripsConds_iff.2 (flattenAux_strips .and (by simp) _ h)
  | .comp k .or fs, h => exact stripsConds_iff.2 (flattenAux_strips .or (by simp) _ h)
  | .comp k .not fs, h => exact h
  | .top, _ => trivial
  | .bot, _ => trivial
  | .atom (.user _) _, h => exact h
  | .atom (.cmp _) _, h => exact h

mutual
theorem strips_binders {ps : List Var} : ∀ f : Formula, StripsCond X ps f → VarBindersF f ∧ ∀ v, ¬ BoundF v f
  | .top, _ => by simp [VarBindersF, BoundF]
  | .bot, _ => by simp [VarBindersF, BoundF]
  | .atom (.user p) ts, h => by simpa only [VarBindersF, BoundF] using stripsTs_binders h
  | .atom (.cmp p) ts, h => by simpa only [VarBindersF, BoundF] using stripsTs_binders h.2.2
  | .comp k .and fs, h => by simpa only [VarBindersF, BoundF] using stripss_binders fs h
  | .comp k .or fs, h => by simpa only [VarBindersF, BoundF] using stripss_binders fs h
  | .comp k .not fs, h => by simpa only [VarBindersF, BoundF] using stripss_binders fs h.2
  | .quant _ _ _, h => by simp [StripsCond] at h
theorem stripss_binders {ps : List Var} : ∀ fs : List Formula, StripsConds X ps fs → VarBindersFs fs ∧ ∀ v, ¬ BoundFs v fs
  | [], _ => by simp [VarBindersFs, BoundFs]
  | f :: fs, h => by
    obtain ⟨h1, h2⟩ := strips_binders f h.1
    obtain ⟨h3, h4⟩ := stripss_binders fs h.2
    exact ⟨⟨h1, h3⟩, fun v hv => hv.elim (h2 v) (h4 v)⟩
theorem stripsTs_binders {ps : List Var} : ∀ {ts : List Term}, (∀ t ∈ ts, StripsTerm X ps t) → VarBindersTs ts ∧ ∀ v, ¬ BoundTs v ts
  | [], _ => by simp [VarBindersTs, BoundTs]
  | t :: ts, h => by
    obtain ⟨h1, h2⟩ := stripsTs_binders (fun x hx => h x (List.mem_cons_of_mem _ hx))
    have ht := h t (by simp)
    match t, ht with
    | .const n s, _ => simp only [VarBindersTs, VarBindersT, BoundTs, BoundT, true_and, false_or]; exact ⟨h1, h2⟩
    | .var w, _ => simp only [VarBindersTs, VarBindersT, BoundTs, BoundT, true_and, false_or]; exact ⟨h1, h2⟩
end

/-! ### Transitions -/

/-- The ground operator for an action and constants for its parameters. -/
def instOp (a : PAction) (cs : List Const) : Operator := ⟨flatten (subF (instSubst a.params cs) a.pre), subEs (instSubst a.params cs) a.effs⟩

theorem binds_instantiates {R : CmpRel} {S : PState} {ps : List Var} {cs : List Const} {τ : Asg String} (hb : Binds X ps cs τ) :
    Instantiates (stateInterp X.dom R S) ps cs τ τ :=
  ⟨List.Forall₂.imp (fun _ _ h => h.1) hb, fun _ _ => rfl⟩

theorem mem_subEs {s : Subst} {es : List Effect} {e' : Effect} : e' ∈ subEs s es ↔ ∃ e ∈ es, e' = subE s e := by
  induction es with
  | nil => simp [subEs]
  | cons e es ih => simp [subEs, ih]

theorem toTerms_inj : ∀ {pt qt : List Const}, pt.map Const.toTerm = qt.map Const.toTerm → pt = qt
  | [], [], _ => rfl
  | [], _ :: _, h => by simp at h
  | _ :: _, [], h => by simp at h
  | c :: pt, d :: qt, h => by
    simp only [List.map_cons, List.cons.injEq, Const.toTerm, Term.const.injEq] at h
    obtain ⟨⟨h1, h2⟩, h3⟩ := h
    obtain ⟨n, s⟩ := c
    obtain ⟨n', s'⟩ := d
    simp only at h1 h2
    rw [h1, h2, toTerms_inj h3]

theorem inst_applicable (T : StripsTask X L consts init acts) (W : LPWellFormed X) (R : CmpRel) {m : MState} {S : PState} (h : Tracks X L m S)
    {x : String × PAction} (hx : x ∈ acts) {cs : List Const} {τ : Asg String} (hb : Binds X x.2.params cs τ) :
    ∃ b, isApplicable L m (instOp x.2 cs) = .ok b ∧ (b = true ↔ Sat (stateInterp X.dom R S) x.2.pre τ) := by
  have hn := T.params x hx
  have hpre := T.pre x hx
  obtain ⟨b, h1, h2⟩ := eval_cond T W R h τ _ (flatten_strips (inst_cond T hn hb _ hpre))
  refine ⟨b, h1, ?_⟩
  have hu := updAsg_instantiates (I := stateInterp X.dom R S) hn (binds_instantiates hb)
  obtain ⟨g1, g2⟩ := strips_binders _ hpre
  rw [h2, ← C12_flatten_equiv _ String (stateInterp X.dom R S) τ,
    subF_sem (stateInterp X.dom R S) (instSubst_keys _ _) x.2.pre g1 (fun v hv => absurd hv (g2 v)) τ]
  unfold instSubst
  rw [hu]

/-- The transition that an action makes. -/
def Moves (X : LPInput) (R : CmpRel) (a : PAction) (τ : Asg String) (S S' : PState) : Prop :=
  ∀ p as, S' p as ↔ (∃ e ∈ a.effs, Causes (stateInterp X.dom R S) true e τ p as) ∨
    (S p as ∧ ¬ ∃ e ∈ a.effs, Causes (stateInterp X.dom R S) false e τ p as)

theorem inst_effs (T : StripsTask X L consts init acts) (R : CmpRel) (S : PState) {x : String × PAction} (hx : x ∈ acts)
    {cs : List Const} {τ : Asg String} (hb : Binds X x.2.params cs τ) :
    (∀ e ∈ (instOp x.2 cs).effs, ∃ p pt, (∀ c ∈ pt, DeclaredIn X c) ∧ (e = addEff p pt ∧ WellTyped L p pt ∧
      (∃ ts, Effect.add .top (.user p) ts ∈ x.2.effs) ∨ e = delEff p pt)) ∧
    (∀ p as, (∃ e ∈ x.2.effs, Causes (stateInterp X.dom R S) true e τ p as) ↔
      ∃ pt, addEff p pt ∈ (instOp x.2 cs).effs ∧ as = pt.map fun c => nameText c.name) ∧
    (∀ p as, (∃ e ∈ x.2.effs, Causes (stateInterp X.dom R S) false e τ p as) ↔
      ∃ pt, delEff p pt ∈ (instOp x.2 cs).effs ∧ as = pt.map fun c => nameText c.name) := by
  have hn := T.params x hx
  have he := T.effs x hx
  have hI : ∀ n s, (stateInterp X.dom R S).const n s = nameText n := fun _ _ => rfl
  refine ⟨?_, ?_, ?_⟩
  · intro e hm
    obtain ⟨e0, h0, rfl⟩ := mem_subEs.1 hm
    obtain ⟨p, ts, hts, hc⟩ := he e0 h0
    obtain ⟨pt, g1, g2, -, g4⟩ := inst_terms T hn hb ts hts
    refine ⟨p, pt, g2, ?_⟩
    rcases hc with rfl | ⟨rfl, hty⟩
    · right; simp only [subE, g1, delEff]; rfl
    · left; exact ⟨by simp only [subE, g1, addEff]; rfl, g4 _ hty, ts, h0⟩
  · intro p as
    constructor
    · rintro ⟨e, hm, hc⟩
      obtain ⟨q, ts, hts, hc'⟩ := he e hm
      rcases hc' with rfl | ⟨rfl, -⟩
      · cases hc with
        | del _ _ _ _ hf => exact absurd hf (by simp)
      · cases hc
        obtain ⟨pt, g1, -, g3, -⟩ := inst_terms T hn hb ts hts
        refine ⟨pt, mem_subEs.2 ⟨_, hm, ?_⟩, g3 _ hI⟩
        simp only [subE, g1, addEff]; rfl
    · rintro ⟨pt, hm, rfl⟩
      obtain ⟨e0, h0, e⟩ := mem_subEs.1 hm
      obtain ⟨q, ts, hts, hc'⟩ := he e0 h0
      obtain ⟨qt, g1, -, g3, -⟩ := inst_terms T hn hb ts hts
      rcases hc' with rfl | ⟨rfl, -⟩
      · simp [subE, addEff] at e
      · simp only [subE, addEff, g1, Effect.add.injEq, PSym.user.injEq] at e
        obtain ⟨-, rfl, e⟩ := e
        obtain rfl := toTerms_inj e
        refine ⟨_, h0, ?_⟩
        rw [← g3 _ hI]
        exact .add _ _ _ _ rfl (by simp [Sat])
  · intro p as
    constructor
    · rintro ⟨e, hm, hc⟩
      obtain ⟨q, ts, hts, hc'⟩ := he e hm
      rcases hc' with rfl | ⟨rfl, -⟩
      · cases hc
        obtain ⟨pt, g1, -, g3, -⟩ := inst_terms T hn hb ts hts
        refine ⟨pt, mem_subEs.2 ⟨_, hm, ?_⟩, g3 _ hI⟩
        simp only [subE, g1, delEff]; rfl
      · cases hc with
        | add _ _ _ _ hf => exact absurd hf (by simp)
    · rintro ⟨pt, hm, rfl⟩
      obtain ⟨e0, h0, e⟩ := mem_subEs.1 hm
      obtain ⟨q, ts, hts, hc'⟩ := he e0 h0
      obtain ⟨qt, g1, -, g3, -⟩ := inst_terms T hn hb ts hts
      rcases hc' with rfl | ⟨rfl, -⟩
      · simp only [subE, delEff, g1, Effect.del.injEq, PSym.user.injEq] at e
        obtain ⟨-, rfl, e⟩ := e
        obtain rfl := toTerms_inj e
        refine ⟨_, h0, ?_⟩
        rw [← g3 _ hI]
        exact .del _ _ _ _ rfl (by simp [Sat])
      · simp [subE, delEff] at e

theorem inst_progress (T : StripsTask X L consts init acts) (W : LPWellFormed X) (R : CmpRel) (dom : Domains) {m : MState} {S : PState}
    (h : Tracks X L m S) {x : String × PAction} (hx : x ∈ acts) {cs : List Const} {τ : Asg String} (hb : Binds X x.2.params cs τ) :
    ∃ m', progress L dom m (instOp x.2 cs).effs = .ok m' ∧ ∀ S', Moves X R x.2 τ S S' → Tracks X L m' S' := by
  obtain ⟨h1, h2, h3⟩ := inst_effs T R S hx hb
  have hes : ∀ e ∈ (instOp x.2 cs).effs, ∃ p pt, e = addEff p pt ∨ e = delEff p pt := fun e he => by
    obtain ⟨p, pt, -, hc⟩ := h1 e he
    exact ⟨p, pt, hc.imp (·.1) id⟩
  have hdecl : ∀ p pt, (addEff p pt ∈ (instOp x.2 cs).effs ∨ delEff p pt ∈ (instOp x.2 cs).effs) → (∀ c ∈ pt, DeclaredIn X c) ∧
      (addEff p pt ∈ (instOp x.2 cs).effs → WellTyped L p pt) := by
    intro p pt ho
    rcases ho with ho | ho
    · obtain ⟨q, qt, hd, ⟨e, hw, -⟩ | e⟩ := h1 _ ho
      · simp only [addEff, Effect.add.injEq, PSym.user.injEq, true_and] at e
        obtain ⟨rfl, e⟩ := e
        obtain rfl := toTerms_inj e
        exact ⟨hd, fun _ => hw⟩
      · simp [addEff, delEff] at e
    · obtain ⟨q, qt, hd, ⟨e, hw, -⟩ | e⟩ := h1 _ ho
      · simp [addEff, delEff] at e
      · simp only [delEff, Effect.del.injEq, PSym.user.injEq, true_and] at e
        obtain ⟨rfl, e⟩ := e
        obtain rfl := toTerms_inj e
        refine ⟨hd, fun ha => ?_⟩
        obtain ⟨q', qt', -, ⟨e, hw, -⟩ | e⟩ := h1 _ ha
        · simp only [addEff, Effect.add.injEq, PSym.user.injEq, true_and] at e
          obtain ⟨rfl, e⟩ := e
          obtain rfl := toTerms_inj e
          exact hw
        · simp [addEff, delEff] at e
  obtain ⟨m', hm'⟩ := (C24_returns L dom m _ hes).2 fun p pt ha => (hdecl p pt (.inl ha)).2 ha
  refine ⟨m', hm', fun S' hS' => ?_⟩
  obtain ⟨hh, -⟩ := C24_progress L dom m m' _ hes hm'
  refine ⟨fun p as => ?_, fun p pt hp => ?_⟩
  · rw [hS' p as, h2, h3]
    constructor
    · rintro (⟨pt, ha, rfl⟩ | ⟨hs, hno⟩)
      · exact ⟨pt, (hh p pt).2 (.inl ha), rfl⟩
      · obtain ⟨pt, hp, rfl⟩ := (h.same p as).1 hs
        exact ⟨pt, (hh p pt).2 (.inr ⟨hp, fun hd => hno ⟨pt, hd, rfl⟩⟩), rfl⟩
    · rintro ⟨pt, hp, rfl⟩
      rcases (hh p pt).1 hp with ha | ⟨hp, hd⟩
      · exact .inl ⟨pt, ha, rfl⟩
      · refine .inr ⟨(h.same p _).2 ⟨pt, hp, rfl⟩, ?_⟩
        rintro ⟨qt, hq, e⟩
        rw [T.texts_inj W (h.declared p pt hp) (hdecl p qt (.inr hq)).1 e] at hd
        exact hd hq
  · rcases (hh p pt).1 hp with ha | ⟨hp, -⟩
    · exact (hdecl p pt (.inl ha)).1
    · exact h.declared p pt hp

/-! ### The list of operators -/

theorem groundBindings_ok (a : PAction) : ∀ bs : List (List AStr),
    (∀ b ∈ bs, ∃ o, groundPlainFrom consts a (b.map fun n => GItem.name (String.ofList n)) = .ok o) →
    ∃ os, groundBindings consts a bs = .ok os ∧ ∀ o, o ∈ os ↔ ∃ b ∈ bs, groundPlainFrom consts a (b.map fun n => GItem.name (String.ofList n)) = .ok o
  | [], _ => ⟨[], rfl, by simp⟩
  | b :: bs, h => by
    obtain ⟨os, h1, h2⟩ := groundBindings_ok a bs (fun x hx => h x (List.mem_cons_of_mem _ hx))
    obtain ⟨o, ho⟩ := h b (by simp)
    refine ⟨o :: os, by simp only [groundBindings, ho, h1], fun o' => ?_⟩
    simp only [List.mem_cons, h2, exists_eq_or_imp, ho, Except.ok.injEq]
    exact or_congr_left eq_comm

theorem groundLoop_ok {ord : List (List AStr) → List (List AStr)} (hord : ∀ l, (ord l).Perm l) : ∀ gs : List (AStr × List (List AStr)),
    (∀ k g, (k, g) ∈ gs → ∃ a, getAction acts k = .ok a ∧ ∀ b ∈ g, ∃ o, groundPlainFrom consts a (b.map fun n => GItem.name (String.ofList n)) = .ok o) →
    ∃ os, groundActionsLoop consts acts ord gs = .ok os ∧ ∀ o, o ∈ os ↔ ∃ k g a b, (k, g) ∈ gs ∧ getAction acts k = .ok a ∧ b ∈ g ∧
      groundPlainFrom consts a (b.map fun n => GItem.name (String.ofList n)) = .ok o
  | [], _ => ⟨[], rfl, by simp⟩
  | (k, g) :: gs, h => by
    obtain ⟨os, h1, h2⟩ := groundLoop_ok hord gs (fun k' g' hx => h k' g' (List.mem_cons_of_mem _ hx))
    obtain ⟨a, ha, hb⟩ := h k g (by simp)
    have hmem : ∀ b, b ∈ ord g.dedup ↔ b ∈ g := fun b => (hord _).mem_iff.trans List.mem_dedup
    obtain ⟨os', h3, h4⟩ := groundBindings_ok (consts := consts) a (ord g.dedup) (fun b hb' => hb b ((hmem b).1 hb'))
    refine ⟨os' ++ os, by simp only [groundActionsLoop, ha, h3, h1], fun o => ?_⟩
    rw [List.mem_append, h4, h2]
    constructor
    · rintro (⟨b, hb1, hb2⟩ | ⟨k', g', a', b, e1, e2⟩)
      · exact ⟨k, g, a, b, by simp, ha, (hmem b).1 hb1, hb2⟩
      · exact ⟨k', g', a', b, List.mem_cons_of_mem _ e1, e2⟩
    · rintro ⟨k', g', a', b, e1, e2, e3, e4⟩
      rcases List.mem_cons.1 e1 with e | e1
      · cases e
        rw [ha] at e2
        cases e2
        exact .inl ⟨b, (hmem b).2 e3, e4⟩
      · exact .inr ⟨k', g', a', b, e1, e2, e3, e4⟩

theorem getAction_mem : ∀ {acts : List (String × PAction)}, (acts.map Prod.fst).Nodup → ∀ x ∈ acts, getAction acts x.1.toList = .ok x.2
  | [], _, x, hx => by simp at hx
  | y :: acts, hn, x, hx => by
    simp only [List.map_cons, List.nodup_cons] at hn
    simp only [getAction, List.find?_cons]
    rcases List.mem_cons.1 hx with rfl | hx
    · simp
    · have : y.1.toList ≠ x.1.toList := fun e => hn.1 (List.mem_map.2 ⟨x, hx, (String.toList_inj.1 e).symm⟩)
      simp only [this, decide_false]
      exact getAction_mem hn.2 x hx

theorem binds_refers (T : StripsTask X L consts init acts) (W : LPWellFormed X) {τ : Asg String} {ps : List Var} {cs : List Const} (h : Binds X ps cs τ) :
    Refers consts ((ps.map fun v => (τ v).toList).map fun n => GItem.name (String.ofList n)) cs ∧ StringNames cs ∧ cs.length = ps.length := by
  unfold Binds at h
  induction h with
  | nil => exact ⟨.nil, by simp [StringNames], rfl⟩
  | @cons v c ps cs hv _ ih =>
    obtain ⟨t, ht, -, -⟩ := W.consts _ _ hv.2.1
    refine ⟨.cons ?_ ih.1, ?_, by simp [ih.2.2]⟩
    · refine .inr ⟨_, rfl, ?_⟩
      rw [String.ofList_toList, hv.1, ht, nameText]
      exact (T.dict _ _).2 ⟨ht, hv.2.1⟩
    · intro d hd
      rcases List.mem_cons.1 hd with rfl | hd
      · exact ⟨t, ht⟩
      · exact ih.2.1 d hd

theorem binds_ground (T : StripsTask X L consts init acts) (W : LPWellFormed X) {τ : Asg String} {x : String × PAction} (hx : x ∈ acts)
    {cs : List Const} (h : Binds X x.2.params cs τ) :
    ∃ o, groundPlainFrom consts x.2 ((x.2.params.map fun v => (τ v).toList).map fun n => GItem.name (String.ofList n)) = .ok o ∧
      o.op = instOp x.2 cs := by
  obtain ⟨h1, h2, h3⟩ := binds_refers T W h
  obtain ⟨o, ho⟩ := (C65_returns consts x.2 (T.params x hx) _).2 ⟨cs, h1, h3, h2⟩
  exact ⟨o, ho, by rw [groundPlainFrom_ok ho h1]; rfl⟩

/-- The operators: instances of the actions, and among them those that can be applied in a reachable state. -/
theorem ground_ops (T : StripsTask X L consts init acts) (W : LPWellFormed X) (R : CmpRel) (incl : Bool) (Ti : LPTight X incl)
    {run : SolverRun} {fl : List String} (h : SolverRunOf X R true incl run) {ord : List (List AStr) → List (List AStr)}
    (hord : ∀ l, (ord l).Perm l) :
    (∃ ops, groundProblemOps run consts acts ord (newStrategy X true fl) = .ok ops ∧
      (∀ o ∈ ops, ∃ x ∈ acts, ∃ cs τ, Binds X x.2.params cs τ ∧ o.op = instOp x.2 cs) ∧
      ∀ x ∈ acts, ∀ S, PReach X R S → ∀ τ, (∀ v ∈ x.2.params, OfSort X.dom v.sort (τ v)) → Sat (stateInterp X.dom R S) x.2.pre τ →
        ∀ cs, Binds X x.2.params cs τ → ∃ o ∈ ops, o.op = instOp x.2 cs) ∨
    (groundProblemOps run consts acts ord (newStrategy X true fl) = .error .representation ∧
      ∀ S, PReach X R S → ∀ σ, ¬ Sat (stateInterp X.dom R S) X.goal σ) := by
  have hnames : (acts.map Prod.fst).Nodup := by
    have := Ti.names
    rw [T.actions, List.map_map] at this
    exact this
  rcases C49_exact_partial X W R incl Ti run fl h with ⟨-, gs, hgs, hk, hg⟩ | ⟨hno, herr⟩
  · left
    have hsrc : ∀ k g, (k, g) ∈ gs → ∃ x ∈ acts, k = x.1.toList ∧ ∀ b ∈ g, ∃ τ : Asg String, (∀ v ∈ x.2.params, OfSort X.dom v.sort (τ v)) ∧
        b = x.2.params.map fun v => (τ v).toList := by
      intro k g hkg
      have : k ∈ gs.map Prod.fst := List.mem_map.2 ⟨_, hkg, rfl⟩
      rw [hk, T.actions, List.map_map] at this
      obtain ⟨x, hx, rfl⟩ := List.mem_map.1 this
      refine ⟨x, hx, rfl, fun b hb => ?_⟩
      obtain ⟨σ, hσ, e⟩ := (hg x.1 ⟨x.2.params, x.2.pre, x.2.effs⟩ g (by rw [T.actions]; exact List.mem_map.2 ⟨x, hx, rfl⟩) hkg b).1 hb
      exact ⟨σ, hσ.1, e⟩
    obtain ⟨ops, ho1, ho2⟩ := groundLoop_ok (consts := consts) (acts := acts) hord gs (by
      intro k g hkg
      obtain ⟨x, hx, rfl, hb⟩ := hsrc k g hkg
      refine ⟨x.2, getAction_mem hnames x hx, fun b hb' => ?_⟩
      obtain ⟨τ, hτ, rfl⟩ := hb b hb'
      obtain ⟨cs, hcs⟩ := binds_exists W (T.sorts x hx) hτ
      obtain ⟨o, ho, -⟩ := binds_ground T W hx hcs
      exact ⟨o, ho⟩)
    refine ⟨ops, by simp only [groundProblemOps, hgs, ho1], ?_, ?_⟩
    · intro o ho
      obtain ⟨k, g, a, b, e1, e2, e3, e4⟩ := (ho2 o).1 ho
      obtain ⟨x, hx, rfl, hb⟩ := hsrc k g e1
      rw [getAction_mem hnames x hx] at e2
      cases e2
      obtain ⟨τ, hτ, rfl⟩ := hb b e3
      obtain ⟨cs, hcs⟩ := binds_exists W (T.sorts x hx) hτ
      obtain ⟨o', ho', hop⟩ := binds_ground T W hx hcs
      rw [ho'] at e4
      cases e4
      exact ⟨x, hx, cs, τ, hcs, hop⟩
    · intro x hx S hS τ hτ hpre cs hcs
      have hxa : (x.1, (⟨x.2.params, x.2.pre, x.2.effs⟩ : Schema)) ∈ X.actions := by rw [T.actions]; exact List.mem_map.2 ⟨x, hx, rfl⟩
      rcases C49_complete_partial X W R incl run fl h with ⟨gs', hgs', hc⟩ | ⟨herr, -⟩
      · rw [hgs] at hgs'
        cases hgs'
        obtain ⟨g, hg1, hg2⟩ := hc x.1 _ τ S hxa hS ⟨hτ, hpre⟩
        obtain ⟨o, ho, hop⟩ := binds_ground T W hx hcs
        exact ⟨o, (ho2 o).2 ⟨_, g, x.2, _, hg1, getAction_mem hnames x hx, hg2, ho⟩, hop⟩
      · rw [hgs] at herr
        cases herr
  · right
    refine ⟨by simp only [groundProblemOps, herr], ?_⟩
    rcases C49_complete_partial X W R incl run fl h with ⟨gs', hgs', -⟩ | ⟨-, hc⟩
    · rw [herr] at hgs'
      cases hgs'
    · exact hc

/-! ### Plans -/

theorem tracks_init (T : StripsTask X L consts init acts) (R : CmpRel) {S : PState} (h : Represents L init S) :
    Tracks X L init S ∧ PReach X R S := by
  refine ⟨⟨h, T.initConsts⟩, .init S fun p as => ?_⟩
  rw [h p as]
  constructor
  · rintro ⟨pt, hp, rfl⟩
    exact ⟨_, (T.initAtoms p _).2 ⟨pt, hp, rfl⟩, (evalTs_consts R S _ pt).symm⟩
  · rintro ⟨ts, hm, rfl⟩
    obtain ⟨pt, hp, rfl⟩ := (T.initAtoms p ts).1 hm
    exact ⟨pt, hp, evalTs_consts R S _ pt⟩

theorem run_reach (R : CmpRel) {S S' : PState} {plan : List (String × List String)} (h : LiftedRun X R S plan S') (hS : PReach X R S) :
    PReach X R S' := by
  induction h with
  | nil S => exact hS
  | cons S S' S'' n a σ rest hm ha he _ ih => exact ih (.step S S' n a σ hS hm ha he)

theorem run_exec (T : StripsTask X L consts init acts) (W : LPWellFormed X) (R : CmpRel) (dom : Domains) {ops : List Operator}
    (hops : ∀ x ∈ acts, ∀ S, PReach X R S → ∀ τ, (∀ v ∈ x.2.params, OfSort X.dom v.sort (τ v)) → Sat (stateInterp X.dom R S) x.2.pre τ →
        ∀ cs, Binds X x.2.params cs τ → instOp x.2 cs ∈ ops)
    {S S' : PState} {plan : List (String × List String)} (h : LiftedRun X R S plan S') :
    PReach X R S → ∀ m, Tracks X L m S → ∃ os m', os.length = plan.length ∧ (∀ o ∈ os, o ∈ ops) ∧ execPlan L dom m os = .ok (some m') ∧
      Tracks X L m' S' := by
  induction h with
  | nil S => exact fun _ m hm => ⟨[], m, rfl, by simp, rfl, hm⟩
  | cons S S' S'' n a σ rest hm ha he hr ih =>
    intro hS m ht
    have hS' := PReach.step S S' n a σ hS hm ha he
    rw [T.actions] at hm
    obtain ⟨x, hx, e⟩ := List.mem_map.1 hm
    cases e
    obtain ⟨cs, hcs⟩ := binds_exists W (T.sorts x hx) ha.1
    obtain ⟨b, h1, h2⟩ := inst_applicable T W R ht hx hcs
    obtain ⟨m', h3, h4⟩ := inst_progress T W R dom ht hx hcs
    obtain ⟨os, m'', g1, g2, g3, g4⟩ := ih hS' m' (h4 S' he)
    rw [h2.2 ha.2] at h1
    refine ⟨instOp x.2 cs :: os, m'', by simp [g1], ?_, by simp only [execPlan, h1, h3, g3], g4⟩
    intro o ho
    rcases List.mem_cons.1 ho with rfl | ho
    · exact hops x hx S hS σ ha.1 ha.2 cs hcs
    · exact g2 o ho

theorem exec_run (T : StripsTask X L consts init acts) (W : LPWellFormed X) (R : CmpRel) (dom : Domains) {ops : List Operator}
    (hops : ∀ o ∈ ops, ∃ x ∈ acts, ∃ cs τ, Binds X x.2.params cs τ ∧ o = instOp x.2 cs) :
    ∀ (os : List Operator) (m m' : MState) (S : PState), Tracks X L m S → (∀ o ∈ os, o ∈ ops) → execPlan L dom m os = .ok (some m') →
      ∃ plan S', plan.length = os.length ∧ LiftedRun X R S plan S' ∧ Tracks X L m' S'
  | [], m, m', S, ht, _, he => by
    simp only [execPlan, Except.ok.injEq, Option.some.injEq] at he
    exact ⟨[], S, rfl, .nil S, he ▸ ht⟩
  | o :: os, m, m', S, ht, ho, he => by
    obtain ⟨x, hx, cs, τ, hb, rfl⟩ := hops o (ho o (by simp))
    obtain ⟨b, h1, h2⟩ := inst_applicable T W R ht hx hb
    obtain ⟨m1, h3, h4⟩ := inst_progress T W R dom ht hx hb
    cases b with
    | false => simp [execPlan, h1] at he
    | true =>
      simp only [execPlan, h1, h3] at he
      obtain ⟨plan, S', g1, g2, g3⟩ := exec_run T W R dom hops os m1 m' (fun p as =>
        (∃ e ∈ x.2.effs, Causes (stateInterp X.dom R S) true e τ p as) ∨ (S p as ∧ ¬ ∃ e ∈ x.2.effs, Causes (stateInterp X.dom R S) false e τ p as))
        (h4 _ fun _ _ => Iff.rfl) (fun o ho' => ho o (by simp [ho'])) he
      exact ⟨_ :: plan, S', by simp [g1], .cons _ _ _ x.1 ⟨x.2.params, x.2.pre, x.2.effs⟩ τ _ (by rw [T.actions]; exact List.mem_map.2 ⟨x, hx, rfl⟩)
        ⟨binds_typed W (T.sorts x hx) hb, h2.1 rfl⟩ (fun _ _ => Iff.rfl) g2, g3⟩

theorem successors_ok (T : StripsTask X L consts init acts) (W : LPWellFormed X) (R : CmpRel) (dom : Domains) {m : MState} {S : PState}
    (ht : Tracks X L m S) : ∀ ops : List Operator, (∀ o ∈ ops, ∃ x ∈ acts, ∃ cs τ, Binds X x.2.params cs τ ∧ o = instOp x.2 cs) →
    ∃ l, groundSuccessors L dom m ops = .ok l
  | [], _ => ⟨[], rfl⟩
  | o :: ops, h => by
    obtain ⟨l, hl⟩ := successors_ok T W R dom ht ops (fun o' ho' => h o' (by simp [ho']))
    obtain ⟨x, hx, cs, τ, hb, rfl⟩ := h o (by simp)
    obtain ⟨b, h1, h2⟩ := inst_applicable T W R ht hx hb
    obtain ⟨m1, h3, h4⟩ := inst_progress T W R dom ht hx hb
    cases b with
    | false => exact ⟨l, by simp only [groundSuccessors, h1, hl]⟩
    | true => exact ⟨(instOp x.2 cs, m1) :: l, by simp only [groundSuccessors, h1, h3, hl]⟩

/-- The atoms that ground effects add. -/
def addedAtoms : Effect → List TrueAtom
  | .add _ (.user p) ts => [(p, ts.map fun t => match t with | .const n s => ⟨n, s⟩ | _ => default, none)]
  | _ => []

theorem addedAtoms_addEff (p : String) (pt : List Const) : addedAtoms (addEff p pt) = [(p, pt, none)] := by
  simp only [addedAtoms, addEff, List.map_map]
  congr 3
  conv_rhs => rw [← List.map_id pt]
  rfl

/-- Additions and deletions of atoms leave the functions alone. -/
theorem exec_values (T : StripsTask X L consts init acts) (R : CmpRel) (dom : Domains) {ops : List Operator}
    (hops : ∀ o ∈ ops, ∃ x ∈ acts, ∃ cs τ, Binds X x.2.params cs τ ∧ o = instOp x.2 cs) :
    ∀ (os : List Operator) (m m' : MState), (∀ o ∈ os, o ∈ ops) → execPlan L dom m os = .ok (some m') →
      ∀ f pt, m'.value L f pt = m.value L f pt
  | [], m, m', _, he => by
    simp only [execPlan, Except.ok.injEq, Option.some.injEq] at he
    exact fun f pt => by rw [he]
  | o :: os, m, m', ho, he => by
    obtain ⟨x, hx, cs, τ, hb, rfl⟩ := hops o (ho o (by simp))
    have hes : ∀ e ∈ (instOp x.2 cs).effs, ∃ p pt, e = addEff p pt ∨ e = delEff p pt := fun e he => by
      obtain ⟨p, pt, -, hc⟩ := (inst_effs T R (fun _ _ => False) hx hb).1 e he
      exact ⟨p, pt, hc.imp (·.1) id⟩
    simp only [execPlan] at he
    split at he
    · cases he
    · cases he
    · split at he
      · cases he
      · rename_i m1 hm1
        intro f pt
        rw [exec_values T R dom hops os m1 m' (fun o ho' => ho o (by simp [ho'])) he f pt]
        exact (C24_progress L dom m m1 _ hes hm1).2 f pt

/-- What the search finds with operators that are instances of the actions, and among which are all instances that can be applied in
a reachable state. -/
theorem search_ops (T : StripsTask X L consts init acts) (W : LPWellFormed X) (R : CmpRel) (ops : List Operator)
    (hs : ∀ o ∈ ops, ∃ x ∈ acts, ∃ cs τ, Binds X x.2.params cs τ ∧ o = instOp x.2 cs)
    (hc : ∀ x ∈ acts, ∀ S, PReach X R S → ∀ τ, (∀ v ∈ x.2.params, OfSort X.dom v.sort (τ v)) → Sat (stateInterp X.dom R S) x.2.pre τ →
      ∀ cs, Binds X x.2.params cs τ → instOp x.2 cs ∈ ops)
    (hist : List MOp) (hi : init = MState.empty.run L hist) (N : String → Prop) (K V : Const → Prop)
    (hp : PrintedApart X L init acts N K V) (S₀ : PState) (hS : Represents L init S₀) (max : Int) (hmax : max < 0) :
    ∃ bound, ∀ fuel, bound < fuel →
      ∃ st, bfs (textSearchModel L X.dom init X.goal ops) max fuel = some (.ok (true, st)) ∧
        (0 < st.numGoals ↔ ∃ plan S σ, LiftedRun X R S₀ plan S ∧ Sat (stateInterp X.dom R S) X.goal σ) ∧
        (∀ plan S, LiftedRun X R S₀ plan S → ∃ p ∈ st.expanded, Represents L p.1 S ∧ p.2 ≤ plan.length) ∧
        (∀ p ∈ st.expanded, ∃ plan S, LiftedRun X R S₀ plan S ∧ plan.length = p.2 ∧ Represents L p.1 S) ∧
        (st.expanded.Pairwise fun p q => ¬ ∃ S, Represents L p.1 S ∧ Represents L q.1 S) ∧
        (∀ p ∈ st.expanded, ∃ S, Tracks X L p.1 S) := by
  obtain ⟨htr, hre⟩ := tracks_init T R hS
  have htidy := (Tidy.empty L).run hist
  rw [← hi] at htidy
  obtain ⟨A, hA⟩ : ∃ A, A = (rawAtoms init ++ ops.flatMap fun o => o.effs.flatMap addedAtoms).dedup := ⟨_, rfl⟩
  have hsub : ∀ a ∈ A, N a.1 ∧ (∀ c ∈ a.2.1, K c) ∧ ∀ v, a.2.2 = some v → V v := by
    intro a ha
    rw [hA, List.mem_dedup, List.mem_append] at ha
    rcases ha with ha | ha
    · exact hp.initial.within.mem htidy a ha
    · obtain ⟨o, hom, ha⟩ := List.mem_flatMap.1 ha
      obtain ⟨e, hem, ha⟩ := List.mem_flatMap.1 ha
      obtain ⟨x, hx, cs, τ, hb, rfl⟩ := hs o hom
      obtain ⟨p, pt, hd, ⟨rfl, -, ts, hts⟩ | rfl⟩ := (inst_effs T R S₀ hx hb).1 e hem
      · rw [addedAtoms_addEff, List.mem_singleton] at ha
        subst ha
        exact ⟨hp.adds x hx p ts hts, fun c hc => hp.consts _ _ (hd c hc), by simp⟩
      · simp [addedAtoms, delEff] at ha
  have hdist : Distinct (· ∈ A) :=
    ⟨fun p pt v ha => hp.apart.distinct.legible p pt v (hsub _ ha), fun a ha b hb e => hp.apart.distinct.apart a (hsub a ha) b (hsub b hb) e⟩
  have hw : Within L (· ∈ A) init := ⟨fun p pt hh => by
      rw [hA, List.mem_dedup]; exact List.mem_append_left _ ((mem_rawAtoms_pred htidy p pt).2 hh),
    fun f pt v hh => by rw [hA, List.mem_dedup]; exact List.mem_append_left _ ((mem_rawAtoms_fun htidy f pt v).2 hh)⟩
  have hww : ∀ o ∈ ops, ∀ e ∈ o.effs, WritesWithin L (· ∈ A) e := by
    intro o hom e hem
    have hom' := hom
    obtain ⟨x, hx, cs, τ, hb, rfl⟩ := hs o hom
    obtain ⟨p, pt, hd, ⟨rfl, -, ts, hts⟩ | rfl⟩ := (inst_effs T R S₀ hx hb).1 e hem
    · refine ⟨p, pt, rfl, rfl, ?_⟩
      show (p, pt, none) ∈ A
      rw [hA, List.mem_dedup]
      refine List.mem_append_right _ (List.mem_flatMap.2 ⟨_, hom', List.mem_flatMap.2 ⟨_, hem, ?_⟩⟩)
      rw [addedAtoms_addEff]
      simp
    · trivial
  refine ⟨2 ^ A.length, fun fuel hf => ?_⟩
  subst hi
  obtain ⟨r, hr, h1, h2, h3⟩ := C84_finite_partial L X.dom hist X.goal ops A (hA ▸ List.nodup_dedup _) hdist hw hww max fuel hf
  have hex : ∀ os m, (∀ o ∈ os, o ∈ ops) → execPlan L X.dom (MState.empty.run L hist) os = .ok (some m) →
      ∃ plan S', plan.length = os.length ∧ LiftedRun X R S₀ plan S' ∧ Tracks X L m S' :=
    fun os m => exec_run T W R X.dom hs os _ m S₀ htr
  have hgoal : ∀ (m : MState) S, Tracks X L m S → ∀ σ, ∃ b, evFormula L m noSigma X.goal = .ok b ∧ (b = true ↔ Sat (stateInterp X.dom R S) X.goal σ) :=
    fun m S ht σ => eval_cond T W R ht σ _ T.goal
  cases r with
  | error e =>
    exfalso
    obtain ⟨os, m, g1, g2, g3⟩ := h3 e rfl
    obtain ⟨plan, S', -, -, ht⟩ := hex os m g1 g2
    rcases g3 with g3 | g3
    · obtain ⟨b, hb, -⟩ := hgoal m S' ht (fun _ => "")
      rw [g3] at hb; cases hb
    · obtain ⟨l, hl⟩ := successors_ok T W R X.dom ht _ hs
      rw [g3] at hl; cases hl
  | ok q =>
    obtain ⟨b, st⟩ := q
    cases b with
    | false => exact absurd rfl (h2 hmax st)
    | true =>
      obtain ⟨k1, k2, k3, k4⟩ := h1 st rfl
      refine ⟨st, hr, ?_, ?_, ?_, ?_, ?_⟩
      · rw [k1]
        constructor
        · rintro ⟨os, m, g1, g2, g3⟩
          obtain ⟨plan, S', -, e2, e3⟩ := hex os m g1 g2
          obtain ⟨b, hb, hbs⟩ := hgoal m S' e3 (fun _ => "")
          rw [g3] at hb
          cases hb
          exact ⟨plan, S', _, e2, hbs.1 rfl⟩
        · rintro ⟨plan, S, σ, g1, g2⟩
          obtain ⟨os, m, -, e2, e3, e4⟩ := run_exec T W R X.dom hc g1 hre _ htr
          obtain ⟨b, hb, hbs⟩ := hgoal m S e4 σ
          exact ⟨os, m, e2, e3, by rw [hb, hbs.2 g2]⟩
      · intro plan S hr
        obtain ⟨os, m, e1, e2, e3, e4⟩ := run_exec T W R X.dom hc hr hre _ htr
        obtain ⟨p, hp, ho, hl⟩ := k2 os m e2 e3
        refine ⟨p, hp, fun q as => ?_, e1 ▸ hl⟩
        rw [e4.same q as]
        have := ho (.pred q)
        exact exists_congr fun pt => and_congr_left fun _ => by rw [this pt]
      · intro p hp
        obtain ⟨os, e1, e2, e3⟩ := k3 p hp
        obtain ⟨plan, S', g1, g2, g3⟩ := hex os p.1 e2 e3
        exact ⟨plan, S', g2, g1.trans e1, g3.same⟩
      · refine List.Pairwise.imp_of_mem ?_ k4
        rintro p q hp hq hpq ⟨S, hS1, hS2⟩
        obtain ⟨os, -, a2, a3⟩ := k3 p hp
        obtain ⟨os', -, b2, b3⟩ := k3 q hq
        obtain ⟨-, S1, -, -, t1⟩ := hex os p.1 a2 a3
        obtain ⟨-, S2, -, -, t2⟩ := hex os' q.1 b2 b3
        have one : ∀ (m r : MState), (∀ u pt, m.holds L u pt = true → ∀ c ∈ pt, DeclaredIn X c) →
            (∀ u pt, r.holds L u pt = true → ∀ c ∈ pt, DeclaredIn X c) → Represents L m S → Represents L r S →
            ∀ u pt, m.holds L u pt = true → r.holds L u pt = true := by
          intro m r hm hr h1 h2 u pt hu
          obtain ⟨qt, hq, e⟩ := (h2 u _).1 ((h1 u _).2 ⟨pt, hu, rfl⟩)
          rw [T.texts_inj W (hm u pt hu) (hr u qt hq) e]
          exact hq
        refine hpq fun x => ?_
        match x with
        | .pred u => exact fun pt => Bool.eq_iff_iff.2 ⟨one _ _ t1.declared t2.declared hS1 hS2 u pt, one _ _ t2.declared t1.declared hS2 hS1 u pt⟩
        | .fn f => exact fun pt => by rw [exec_values T R X.dom hs os _ _ a2 a3 f pt, exec_values T R X.dom hs os' _ _ b2 b3 f pt]
      · intro p hp
        obtain ⟨os, -, a2, a3⟩ := k3 p hp
        obtain ⟨-, S1, -, -, t1⟩ := hex os p.1 a2 a3
        exact ⟨S1, t1⟩

/-! ### C117 -/

/-- C117: planning for STRIPS problems from beginning to end. Grounding the actions with the reachability logic program either raises
ReachabilityLPUnsolvable, and then no plan reaches the goal; or it returns operators with which the breadth-first search, without a limit
on the number of expansions, stops without an error, and then: a goal has been counted exactly if some sequence of action instances
reaches the goal; every state that a sequence of action instances leads to has been expanded, not deeper than the sequence is long; and
every state that has been expanded at some depth is what a sequence of that length leads to; and no state has been expanded twice. -/
theorem C117_planning (T : StripsTask X L consts init acts) (W : LPWellFormed X) (R : CmpRel) (incl : Bool) (Ti : LPTight X incl)
    (run : SolverRun) (fl : List String) (h : SolverRunOf X R true incl run) (ord : List (List AStr) → List (List AStr))
    (hord : ∀ l, (ord l).Perm l) (hist : List MOp) (hi : init = MState.empty.run L hist) (N : String → Prop) (K V : Const → Prop)
    (hp : PrintedApart X L init acts N K V) (S₀ : PState) (hS : Represents L init S₀) (max : Int) (hmax : max < 0) :
    (groundProblemOps run consts acts ord (newStrategy X true fl) = .error .representation ∧
      ∀ plan S, LiftedRun X R S₀ plan S → ∀ σ, ¬ Sat (stateInterp X.dom R S) X.goal σ) ∨
    ∃ ops, groundProblemOps run consts acts ord (newStrategy X true fl) = .ok ops ∧ ∃ bound, ∀ fuel, bound < fuel →
      ∃ st, bfs (textSearchModel L X.dom init X.goal (ops.map (·.op))) max fuel = some (.ok (true, st)) ∧
        (0 < st.numGoals ↔ ∃ plan S σ, LiftedRun X R S₀ plan S ∧ Sat (stateInterp X.dom R S) X.goal σ) ∧
        (∀ plan S, LiftedRun X R S₀ plan S → ∃ p ∈ st.expanded, Represents L p.1 S ∧ p.2 ≤ plan.length) ∧
        (∀ p ∈ st.expanded, ∃ plan S, LiftedRun X R S₀ plan S ∧ plan.length = p.2 ∧ Represents L p.1 S) ∧
        (st.expanded.Pairwise fun p q => ¬ ∃ S, Represents L p.1 S ∧ Represents L q.1 S) := by
  obtain ⟨-, hre⟩ := tracks_init T R hS
  rcases ground_ops (fl := fl) T W R incl Ti h hord with ⟨ops, ho, hsound, hcompl⟩ | ⟨he, hno⟩
  · right
    have hs : ∀ o ∈ ops.map (·.op), ∃ x ∈ acts, ∃ cs τ, Binds X x.2.params cs τ ∧ o = instOp x.2 cs := by
      intro o hm
      obtain ⟨o', ho', rfl⟩ := List.mem_map.1 hm
      exact hsound o' ho'
    have hc : ∀ x ∈ acts, ∀ S, PReach X R S → ∀ τ, (∀ v ∈ x.2.params, OfSort X.dom v.sort (τ v)) → Sat (stateInterp X.dom R S) x.2.pre τ →
        ∀ cs, Binds X x.2.params cs τ → instOp x.2 cs ∈ ops.map (·.op) := by
      intro x hx S hS τ h1 h2 cs h3
      obtain ⟨o, ho, e⟩ := hcompl x hx S hS τ h1 h2 cs h3
      exact List.mem_map.2 ⟨o, ho, e⟩
    obtain ⟨bound, hb⟩ := search_ops T W R (ops.map (·.op)) hs hc hist hi N K V hp S₀ hS max hmax
    refine ⟨ops, ho, bound, fun fuel hf => ?_⟩
    obtain ⟨st, h1, h2, h3, h4, h5, -⟩ := hb fuel hf
    exact ⟨st, h1, h2, h3, h4, h5⟩
  · exact .inl ⟨he, fun plan S hr => hno S (run_reach R hr hre)⟩

end

/-! ### Examples -/

/-- The only object. -/
def flipObj : Const := ⟨.str "b-1", "block"⟩

/-- `flip(?x)` needs `p(?x)`, adds `q(?x)` and deletes `p(?x)`. -/
def flipAct : PAction where
  name := "flip"
  params := [⟨"?x", "object"⟩]
  pre := .atom (.user "p") [.var ⟨"?x", "object"⟩]
  effs := [.add .top (.user "q") [.var ⟨"?x", "object"⟩], .del .top (.user "p") [.var ⟨"?x", "object"⟩]]
  cost := none

/-- The goal is to have `q(b-1)` and not `p(b-1)`. -/
def flipLP : LPInput := exLP ["b-1"] [("p", [flipObj.toTerm])] [("flip", ⟨flipAct.params, flipAct.pre, flipAct.effs⟩)]
  (.comp .tuple .and [.atom (.user "q") [flipObj.toTerm], .comp .tuple .not [.atom (.user "p") [flipObj.toTerm]]])

def flipRules : List LPRule :=
  [⟨.pred (.type "block") ["b-1"], []⟩,
   ⟨.pred (.type "object") ["X"], [.pred (.type "block") ["X"]]⟩,
   ⟨.pred (.atom "p") ["b-1"], []⟩,
   ⟨.pred (.action "flip") ["X"], [.pred (.type "object") ["X"], .pred (.atom "p") ["X"]]⟩,
   ⟨.pred (.atom "q") ["X"], [.pred (.action "flip") ["X"]]⟩,
   ⟨.pred .goal [], [.pred (.atom "q") ["b-1"], .taut]⟩]

theorem flipLP_create : createLP flipLP id true false = .ok ⟨0, flipRules⟩ := by rfl

def flipLines : List AStr := ["type_block(b__1).\n".toList, "type_object(b__1).\n".toList, "atom_p(b__1).\n".toList,
  "action_flip(b__1).\n".toList, "atom_q(b__1).\n".toList, "goal.".toList]

theorem flip_facts (s : LPSym) (as : List String) : LPDer eqCmpRel flipRules s as ↔
    (s, as) ∈ [(.type "block", ["b-1"]), (.type "object", ["b-1"]), (.atom "p", ["b-1"]), (.action "flip", ["b-1"]),
      (.atom "q", ["b-1"]), (.goal, [])] := by
  constructor
  · intro hd
    refine lpDer_least (M := fun s as => (s, as) ∈ [(.type "block", ["b-1"]), (.type "object", ["b-1"]), (.atom "p", ["b-1"]),
      (.action "flip", ["b-1"]), (.atom "q", ["b-1"]), (.goal, [])]) ?_ hd
    intro r hr θ s args hh hb
    simp only [flipRules, List.mem_cons, List.not_mem_nil, or_false] at hr
    rcases hr with rfl | rfl | rfl | rfl | rfl | rfl <;> cases hh <;>
      simp [LitTrue, lpInst, isAspVar_X, isAspVar_b_1] at hb ⊢ <;> exact hb
  · have inst : ∀ (r : LPRule) s args, r ∈ flipRules → r.head = .pred s args →
        (∀ s' as, LPLit.pred s' as ∈ r.body → LPDer eqCmpRel flipRules s' (as.map (lpInst fun _ => "b-1"))) →
        (∀ c a b, LPLit.cmp c a b ∉ r.body) → LPDer eqCmpRel flipRules s (args.map (lpInst fun _ => "b-1")) :=
      fun r s args h1 h2 h3 h4 => .rule r _ s args h1 h2 h3 (fun c a b h => absurd h (h4 c a b))
    have f1 : LPDer eqCmpRel flipRules (.type "block") ["b-1"] := by
      have := inst ⟨.pred (.type "block") ["b-1"], []⟩ _ _ (by simp [flipRules]) rfl (by simp) (by simp)
      simpa [lpInst, isAspVar_b_1] using this
    have f2 : LPDer eqCmpRel flipRules (.type "object") ["b-1"] := by
      have := inst ⟨.pred (.type "object") ["X"], [.pred (.type "block") ["X"]]⟩ _ _ (by simp [flipRules]) rfl
        (by simpa [lpInst, isAspVar_X] using f1) (by simp)
      simpa [lpInst, isAspVar_X] using this
    have f3 : LPDer eqCmpRel flipRules (.atom "p") ["b-1"] := by
      have := inst ⟨.pred (.atom "p") ["b-1"], []⟩ _ _ (by simp [flipRules]) rfl (by simp) (by simp)
      simpa [lpInst, isAspVar_b_1] using this
    have f4 : LPDer eqCmpRel flipRules (.action "flip") ["b-1"] := by
      have := inst ⟨.pred (.action "flip") ["X"], [.pred (.type "object") ["X"], .pred (.atom "p") ["X"]]⟩ _ _ (by simp [flipRules]) rfl
        (by
          intro s' as h
          simp only [List.mem_cons, LPLit.pred.injEq, List.not_mem_nil, or_false] at h
          rcases h with ⟨rfl, rfl⟩ | ⟨rfl, rfl⟩
          · simpa [lpInst, isAspVar_X] using f2
          · simpa [lpInst, isAspVar_X] using f3) (by simp)
      simpa [lpInst, isAspVar_X] using this
    have f5 : LPDer eqCmpRel flipRules (.atom "q") ["b-1"] := by
      have := inst ⟨.pred (.atom "q") ["X"], [.pred (.action "flip") ["X"]]⟩ _ _ (by simp [flipRules]) rfl
        (by simpa [lpInst, isAspVar_X] using f4) (by simp)
      simpa [lpInst, isAspVar_X] using this
    have f6 : LPDer eqCmpRel flipRules .goal [] := by
      have := inst ⟨.pred .goal [], [.pred (.atom "q") ["b-1"], .taut]⟩ _ _ (by simp [flipRules]) rfl
        (by simpa [lpInst, isAspVar_b_1] using f5) (by simp)
      simpa using this
    intro h
    simp only [List.mem_cons, Prod.mk.injEq, List.not_mem_nil, or_false] at h
    rcases h with ⟨rfl, rfl⟩ | ⟨rfl, rfl⟩ | ⟨rfl, rfl⟩ | ⟨rfl, rfl⟩ | ⟨rfl, rfl⟩ | ⟨rfl, rfl⟩ <;> assumption

theorem flip_prints : PrintsFacts hyphenTr (LPDer eqCmpRel flipRules) flipLines sanitize := by
  refine ⟨?_, ?_, ?_, ?_⟩
  · intro l hl
    simp only [flipLines, List.mem_cons, List.not_mem_nil, or_false] at hl
    rcases hl with rfl | rfl | rfl | rfl | rfl | rfl
    · exact ⟨.type "block", ["b-1"], (flip_facts _ _).mpr (by simp), ['\n'], .inr rfl, by decide⟩
    · exact ⟨.type "object", ["b-1"], (flip_facts _ _).mpr (by simp), ['\n'], .inr rfl, by decide⟩
    · exact ⟨.atom "p", ["b-1"], (flip_facts _ _).mpr (by simp), ['\n'], .inr rfl, by decide⟩
    · exact ⟨.action "flip", ["b-1"], (flip_facts _ _).mpr (by simp), ['\n'], .inr rfl, by decide⟩
    · exact ⟨.atom "q", ["b-1"], (flip_facts _ _).mpr (by simp), ['\n'], .inr rfl, by decide⟩
    · exact ⟨.goal, [], (flip_facts _ _).mpr (by simp), [], .inl rfl, by decide⟩
  · intro s as hd
    rw [flip_facts] at hd
    simp only [List.mem_cons, Prod.mk.injEq, List.not_mem_nil, or_false] at hd
    rcases hd with ⟨rfl, rfl⟩ | ⟨rfl, rfl⟩ | ⟨rfl, rfl⟩ | ⟨rfl, rfl⟩ | ⟨rfl, rfl⟩ | ⟨rfl, rfl⟩
    · exact ⟨['\n'], .inr rfl, by decide⟩
    · exact ⟨['\n'], .inr rfl, by decide⟩
    · exact ⟨['\n'], .inr rfl, by decide⟩
    · exact ⟨['\n'], .inr rfl, by decide⟩
    · exact ⟨['\n'], .inr rfl, by decide⟩
    · exact ⟨[], .inl rfl, by decide⟩
  all_goals
    intro s as hd
    rw [flip_facts] at hd
    simp only [List.mem_cons, Prod.mk.injEq, List.not_mem_nil, or_false] at hd
    unfold CleanName
    rcases hd with ⟨rfl, rfl⟩ | ⟨rfl, rfl⟩ | ⟨rfl, rfl⟩ | ⟨rfl, rfl⟩ | ⟨rfl, rfl⟩ | ⟨rfl, rfl⟩ <;> decide

theorem flip_run : SolverRunOf flipLP eqCmpRel true false (.ok (hyphenTr, flipLines)) :=
  ⟨id, ⟨0, flipRules⟩, hyphenTr, flipLines, sanitize, fun _ => .refl _, flipLP_create, rfl, flip_prints⟩

theorem flipLP_wf : LPWellFormed flipLP := by
  have hsc : VarScope flipLP (fun v => v = ⟨"?x", "object"⟩) := by
    refine ⟨?_, ?_, ?_⟩
    · rintro v rfl; exact ⟨"X", rfl, by decide⟩
    · rintro v w rfl rfl _; rfl
    · rintro v rfl; simp [flipLP, exLP]
  have hd := exLP_doms (objs := ["b-1"]) (init := flipLP.initAtoms) (acts := flipLP.actions) (goal := flipLP.goal)
  refine ⟨?_, hd.1, hd.2, ?_, ?_, ?_⟩
  · intro n s hm
    simp only [flipLP, exLP, List.map_cons, List.map_nil, List.mem_cons, Prod.mk.injEq, List.not_mem_nil, or_false] at hm
    obtain ⟨rfl, _⟩ := hm
    exact ⟨"b-1", rfl, rfl, by decide⟩
  · intro p ts hm t ht
    simp only [flipLP, exLP, List.mem_singleton, Prod.mk.injEq] at hm
    obtain ⟨rfl, rfl⟩ := hm
    simp only [List.mem_singleton] at ht
    exact ⟨_, _, ht, by decide⟩
  · intro n a hm
    simp only [flipLP, exLP, List.mem_singleton, Prod.mk.injEq] at hm
    obtain ⟨rfl, rfl⟩ := hm
    refine ⟨_, hsc, by simp [flipAct], ⟨by simp [flipAct, FlatF, FlatT], trivial, by simp [flipAct, FreeF, FreeTs, FreeT]⟩, ?_⟩
    intro e he
    simp only [flipAct, List.mem_cons, List.not_mem_nil, or_false] at he
    rcases he with rfl | rfl
    · exact ⟨⟨trivial, trivial, by simp [FreeF]⟩, by simp [FlatT], by simp [flipAct]⟩
    · trivial
  · exact ⟨_, hsc, ⟨by simp [flipLP, exLP, FlatF, FlatFs, FlatT, flipObj, Const.toTerm, nameText, isAspVar_b_1],
      by simp [flipLP, exLP, NoRebind, NoRebinds], by simp [flipLP, exLP, FreeF, FreeFs, FreeTs, FreeT, flipObj, Const.toTerm]⟩⟩

theorem flipLP_tight : LPTight flipLP false := by
  refine ⟨by simp [flipLP, exLP], ?_, ⟨by simp [flipLP, exLP, ClosedEx, ClosedExs], by simp⟩⟩
  intro n a hm
  simp only [flipLP, exLP, List.mem_singleton, Prod.mk.injEq] at hm
  obtain ⟨rfl, rfl⟩ := hm
  refine ⟨⟨trivial, by simp⟩, ?_⟩
  intro e he
  simp only [flipAct, List.mem_cons, List.not_mem_nil, or_false] at he
  rcases he with rfl | rfl
  · exact ⟨trivial, by simp⟩
  · trivial

/-- The language of the example. -/
def flipLang : MLang where
  psorts _ := ["object"]
  fsorts _ := []
  isSub a b := a == b || (a == "block" && b == "object")
  contains _ n := n == .str "b-1"
  interval _ := false

def flipHist : List MOp := [.add (.user "p") [.const flipObj]]

def flipConsts (n : Name) : Option Const := if n = .str "b-1" then some flipObj else none

theorem flip_holds (p : String) (pt : List Const) : (MState.empty.run flipLang flipHist).holds flipLang p pt = true ↔ p = "p" ∧ pt = [flipObj] := by
  rw [← mem_rawAtoms_pred ((Tidy.empty flipLang).run flipHist)]
  have e : rawAtoms (MState.empty.run flipLang flipHist) = [("p", [flipObj], none)] := by decide
  rw [e]
  simp

theorem flip_task : StripsTask flipLP flipLang flipConsts (MState.empty.run flipLang flipHist) [("flip", flipAct)] where
  dict n c := by
    obtain ⟨cn, cs⟩ := c
    simp only [flipConsts, flipLP, exLP, List.map_cons, List.map_nil, List.mem_singleton, Prod.mk.injEq]
    split
    · rename_i h; subst h; simp only [flipObj, Option.some.injEq, Const.mk.injEq]; grind
    · rename_i h; simp only [reduceCtorEq, false_iff]; rintro ⟨rfl, rfl, -⟩; exact h rfl
  sub n s s' t h1 h2 h3 := by
    simp only [flipLP, exLP, List.map_cons, List.map_nil, List.mem_singleton, Prod.mk.injEq] at h1
    obtain ⟨rfl, rfl⟩ := h1
    have := (exLP_under.1 h2).2
    rcases this with rfl | rfl
    · exact h3
    · simp only [flipLang, Bool.or_eq_true, beq_iff_eq, Bool.and_eq_true] at h3 ⊢
      rcases h3 with h3 | h3
      · exact .inr ⟨trivial, h3.symm⟩
      · exact absurd h3.1 (by decide)
  actions := rfl
  initAtoms p ts := by
    simp only [flip_holds, flipLP, exLP, List.mem_singleton, Prod.mk.injEq]
    constructor
    · rintro ⟨rfl, rfl⟩; exact ⟨_, ⟨rfl, rfl⟩, rfl⟩
    · rintro ⟨pt, ⟨rfl, rfl⟩, rfl⟩; exact ⟨rfl, rfl⟩
  initConsts p pt h c hc := by
    rw [flip_holds] at h
    rw [h.2, List.mem_singleton] at hc
    subst hc
    simp [flipLP, exLP, flipObj]
  params x hx := by simp only [List.mem_singleton] at hx; subst hx; decide
  sorts x hx v hv := by
    simp only [List.mem_singleton] at hx; subst hx
    simp only [flipAct, List.mem_singleton] at hv; subst hv
    exact ⟨by simp [flipLP, exLP], rfl⟩
  pre x hx := by simp only [List.mem_singleton] at hx; subst hx; simp [flipAct, StripsCond, StripsTerm]
  effs x hx e he := by
    simp only [List.mem_singleton] at hx; subst hx
    simp only [flipAct, List.mem_cons, List.not_mem_nil, or_false] at he
    rcases he with rfl | rfl
    · exact ⟨"q", _, by simp [StripsTerm, flipAct], .inr ⟨rfl, .cons (by decide) .nil⟩⟩
    · exact ⟨"p", _, by simp [StripsTerm, flipAct], .inl rfl⟩
  goal := by simp [flipLP, exLP, StripsCond, StripsConds, StripsTerm, flipObj, Const.toTerm]

theorem flip_apart : PrintedApart flipLP flipLang (MState.empty.run flipLang flipHist) [("flip", flipAct)] (fun s => s = "p" ∨ s = "q")
    (fun c => c = flipObj) (fun _ => False) where
  apart := by
    refine ⟨?_, ?_, nofun, fun c hc d hd _ => hc.trans hd.symm, nofun⟩
    · rintro s (rfl | rfl) <;> unfold Legible <;> decide
    · rintro c rfl; unfold Legible; decide
  initial := by
    refine ⟨?_, ?_⟩
    · intro p pt h
      rw [flip_holds] at h
      obtain ⟨rfl, rfl⟩ := h
      exact ⟨.inl rfl, by simp⟩
    · intro f pt v h
      have := (mem_rawAtoms_fun ((Tidy.empty flipLang).run flipHist) f pt v).2 h
      have e : rawAtoms (MState.empty.run flipLang flipHist) = [("p", [flipObj], none)] := by decide
      rw [e] at this
      simp at this
  adds x hx p ts h := by
    simp only [List.mem_singleton] at hx; subst hx
    simp only [flipAct, List.mem_cons, Effect.add.injEq, PSym.user.injEq, reduceCtorEq, List.not_mem_nil, or_false] at h
    exact .inr h.2.1
  consts n s h := by
    simp only [flipLP, exLP, List.map_cons, List.map_nil, List.mem_singleton, Prod.mk.injEq] at h
    obtain ⟨rfl, rfl⟩ := h
    rfl

/-- What is true at the beginning, and after `flip(b-1)`. -/
def flipBefore : PState := fun p as => p = "p" ∧ as = ["b-1"]
def flipAfter : PState := fun p as => p = "q" ∧ as = ["b-1"]

theorem flip_before : Represents flipLang (MState.empty.run flipLang flipHist) flipBefore := by
  intro p as
  simp only [flip_holds, flipBefore]
  constructor
  · rintro ⟨rfl, rfl⟩; exact ⟨[flipObj], ⟨rfl, rfl⟩, rfl⟩
  · rintro ⟨pt, ⟨rfl, rfl⟩, rfl⟩; exact ⟨rfl, rfl⟩

/-- `flip(b-1)` is a plan. -/
theorem flip_plan : LiftedRun flipLP eqCmpRel flipBefore [("flip", ["b-1"])] flipAfter := by
  refine .cons _ flipAfter _ "flip" ⟨flipAct.params, flipAct.pre, flipAct.effs⟩ (fun _ => "b-1") [] (by simp [flipLP, exLP]) ⟨?_, ?_⟩ ?_ (.nil _)
  · intro v hv
    simp only [flipAct, List.mem_singleton] at hv
    subst hv
    exact ⟨[flipObj.toTerm], .str "b-1", "block", rfl, by simp [flipObj, Const.toTerm], rfl⟩
  · simp [flipAct, Sat, evalTs, evalT, stateInterp, flipBefore]
  · intro p as
    have e : evalTs (stateInterp flipLP.dom eqCmpRel flipBefore) [.var ⟨"?x", "object"⟩] (fun _ => "b-1") = ["b-1"] := rfl
    constructor
    · rintro ⟨rfl, rfl⟩
      exact .inl ⟨_, List.mem_cons_self, e ▸ .add .top "q" _ _ rfl trivial⟩
    · rintro (⟨e', he, hc⟩ | ⟨⟨rfl, rfl⟩, hn⟩)
      · simp only [flipAct, List.mem_cons, List.not_mem_nil, or_false] at he
        rcases he with rfl | rfl
        · cases hc; exact ⟨rfl, rfl⟩
        · cases hc; contradiction
      · exact absurd ⟨_, List.mem_cons_of_mem _ List.mem_cons_self, e ▸ .del .top "p" _ _ rfl trivial⟩ hn

/-- The theorem applies to this problem, and says that the goal is found. -/
example : ∃ ops, groundProblemOps (.ok (hyphenTr, flipLines)) flipConsts [("flip", flipAct)] id (newStrategy flipLP true ["p", "q"]) = .ok ops ∧
    ∃ bound, ∀ fuel, bound < fuel →
      ∃ st, bfs (textSearchModel flipLang flipLP.dom (MState.empty.run flipLang flipHist) flipLP.goal (ops.map (·.op))) (-1) fuel = some (.ok (true, st)) ∧
        0 < st.numGoals := by
  have hg : ∃ σ, Sat (stateInterp flipLP.dom eqCmpRel flipAfter) flipLP.goal σ :=
    ⟨fun _ => "", by simp [flipLP, exLP, Sat, SatAll, evalTs, evalT, stateInterp, flipAfter, flipObj, Const.toTerm, nameText]⟩
  rcases C117_planning flip_task flipLP_wf eqCmpRel false flipLP_tight _ ["p", "q"] flip_run id (fun _ => .refl _) flipHist rfl _ _ _ flip_apart
    flipBefore flip_before (-1) (by decide) with ⟨-, h⟩ | ⟨ops, h, b, hb⟩
  · obtain ⟨σ, hg⟩ := hg
    exact absurd hg (h _ _ flip_plan σ)
  · refine ⟨ops, h, b, fun fuel hf => ?_⟩
    obtain ⟨st, h1, h2, -⟩ := hb fuel hf
    obtain ⟨σ, hg⟩ := hg
    exact ⟨st, h1, h2.2 ⟨_, _, σ, flip_plan, hg⟩⟩

/-- The operator that is made. -/
example : (match groundProblemOps (.ok (hyphenTr, flipLines)) flipConsts [("flip", flipAct)] id (newStrategy flipLP true ["p", "q"]) with
    | .ok ops => ops.map (·.op)
    | .error _ => []) = [instOp flipAct [flipObj]] := by rfl

/-- A problem without solutions. -/
example : groundProblemOps (.ok (hyphenTr, hopelessLines)) flipConsts [] id (newStrategy hopelessLP true []) = .error .representation := by rfl

end Tarski

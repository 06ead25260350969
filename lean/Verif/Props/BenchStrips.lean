import Verif.Props.BenchPattern
import Verif.Props.Effects
import Verif.Props.SasWriter
/-! C77: the STRIPS blocksworld problems of `generate_strips_blocksworld_problem`. -/
namespace Tarski

/-! ### Specification: the blocks world -/

/-- Where a block can be. -/
inductive BPlace where
  | table | hand | on (b : String)
deriving DecidableEq

/-- A state of the blocks world: the position of every block. Nothing is on a block that is held or on something
that is not a block, no block carries two blocks, the hand holds at most one block, and no block is above itself. -/
structure ValidPos (blocks : List String) (pos : String → BPlace) : Prop where
  support : ∀ x y, x ∈ blocks → pos x = .on y → y ∈ blocks ∧ pos y ≠ .hand
  single : ∀ x x' y, x ∈ blocks → x' ∈ blocks → pos x = .on y → pos x' = .on y → x = x'
  oneHand : ∀ x x', x ∈ blocks → x' ∈ blocks → pos x = .hand → pos x' = .hand → x = x'
  acyclic : ∀ x, ¬ Relation.TransGen (fun a b => a ∈ blocks ∧ pos a = .on b) x x

/-- Nothing is on the block. -/
def NothingOn (blocks : List String) (pos : String → BPlace) (x : String) : Prop := ∀ z ∈ blocks, pos z ≠ .on x

/-- The hand is empty. -/
def HandEmpty (blocks : List String) (pos : String → BPlace) : Prop := ∀ z ∈ blocks, pos z ≠ .hand

/-- The position of one block changes. -/
def movePos (pos : String → BPlace) (x : String) (p : BPlace) : String → BPlace := fun z => if z = x then p else pos z

/-- The four actions of the blocks world. -/
inductive BMove (blocks : List String) (pos : String → BPlace) : String → List String → (String → BPlace) → Prop
  | pickUp (x) : x ∈ blocks → pos x = .table → NothingOn blocks pos x → HandEmpty blocks pos →
      BMove blocks pos "pick-up" [x] (movePos pos x .hand)
  | putDown (x) : x ∈ blocks → pos x = .hand → BMove blocks pos "put-down" [x] (movePos pos x .table)
  | unstack (x y) : x ∈ blocks → y ∈ blocks → pos x = .on y → NothingOn blocks pos x → HandEmpty blocks pos →
      BMove blocks pos "unstack" [x, y] (movePos pos x .hand)
  | stack (x y) : x ∈ blocks → y ∈ blocks → pos x = .hand → x ≠ y → NothingOn blocks pos y →
      BMove blocks pos "stack" [x, y] (movePos pos x (.on y))

/-- The constant of the language that stands for a block. -/
def bwObj (x : String) : Const := ⟨.str x, "object"⟩

/-- The atoms true in the model are those that describe the positions of the blocks. -/
structure DescribesPos (blocks : List String) (L : MLang) (m : MState) (pos : String → BPlace) : Prop where
  on : ∀ pt, m.holds L "on" pt = true ↔
    ∃ x ∈ blocks, ∃ y ∈ blocks, pt = [bwObj x, bwObj y] ∧ pos x = .on y
  ontable : ∀ pt, m.holds L "ontable" pt = true ↔ ∃ x ∈ blocks, pt = [bwObj x] ∧ pos x = .table
  holding : ∀ pt, m.holds L "holding" pt = true ↔ ∃ x ∈ blocks, pt = [bwObj x] ∧ pos x = .hand
  clear : ∀ pt, m.holds L "clear" pt = true ↔
    ∃ x ∈ blocks, pt = [bwObj x] ∧ pos x ≠ .hand ∧ NothingOn blocks pos x
  handempty : ∀ pt, m.holds L "handempty" pt = true ↔ pt = [] ∧ HandEmpty blocks pos

/-- The ground operator obtained from an action by binding its parameters to blocks. -/
def bwBind (vs : List Var) (xs : List String) : Subst := createSubst (vs.map .var) (xs.map (fun x => (bwObj x).toTerm))

/-- `o` is the ground operator of the action called `name`, instantiated with the given blocks. -/
def BWOp (P : BenchProblem) (blocks : List String) (name : String) (xs : List String) (o : Operator) : Prop :=
  (∀ x ∈ xs, x ∈ blocks) ∧ ∃ a, (name, a) ∈ P.actions ∧ a.params.length = xs.length ∧
    groundSchema a (bwBind a.params xs) = .ok o

/-- The location that a pair of the generated pattern stands for. -/
def placeOf (y : String) : BPlace := if y = "table" then .table else .on y

/-! ### Proofs -/

theorem bwObj_inj {x y : String} : bwObj x = bwObj y ↔ x = y := by simp [bwObj]

theorem validPos_rank {blocks : List String} {pos : String → BPlace} (r : String → Nat) (hr : ∀ x ∈ blocks, ∀ y, pos x = .on y → r y < r x) (x : String) :
    ¬ Relation.TransGen (fun a b => a ∈ blocks ∧ pos a = .on b) x x := by
  have key : ∀ a b, Relation.TransGen (fun a b => a ∈ blocks ∧ pos a = .on b) a b → r b < r a := by
    intro a b hab
    induction hab with
    | single h => exact hr _ h.1 _ h.2
    | tail h1 h2 ih => exact (hr _ h2.1 _ h2.2).trans ih
  intro h
  exact absurd (key x x h) (lt_irrefl _)

/-- Moving a block on which nothing stands keeps the arrangement free of cycles. -/
theorem acyclic_move {blocks pos x p} (hv : ValidPos blocks pos) (hx : NothingOn blocks pos x)
    (hp : p ≠ .on x) (z : String) :
    ¬ Relation.TransGen (fun a b => a ∈ blocks ∧ movePos pos x p a = .on b) z z := by
  -- nothing is on `x` after the move either
  have hn : ∀ a ∈ blocks, movePos pos x p a ≠ .on x := by
    intro a ha h
    unfold movePos at h
    split at h
    · exact hp h
    · exact hx a ha h
  have key : ∀ a b, Relation.TransGen (fun a b => a ∈ blocks ∧ movePos pos x p a = .on b) a b → b ≠ x ∧
      (a = x ∨ Relation.TransGen (fun a b => a ∈ blocks ∧ pos a = .on b) a b) := by
    intro a b hab
    induction hab with
    | single h =>
      refine ⟨by rintro rfl; exact hn _ h.1 h.2, ?_⟩
      by_cases ha : a = x
      · exact .inl ha
      · refine .inr (.single ⟨h.1, ?_⟩)
        have := h.2
        simpa [movePos, ha] using this
    | tail h1 h2 ih =>
      rename_i b c
      refine ⟨by rintro rfl; exact hn _ h2.1 h2.2, ?_⟩
      rcases ih.2 with h | h
      · exact .inl h
      · refine .inr (h.tail ⟨h2.1, ?_⟩)
        have := h2.2
        simpa [movePos, ih.1] using this
  intro h
  obtain ⟨h1, h2 | h2⟩ := key z z h
  · exact h1 h2
  · exact hv.acyclic z h2

theorem bmove_valid {blocks pos name xs pos'} (hv : ValidPos blocks pos) (h : BMove blocks pos name xs pos') :
    ValidPos blocks pos' := by
  obtain ⟨h1, h2, h3, h4⟩ := id hv
  cases h with
  | pickUp x hx hp hn he =>
    refine ⟨?_, ?_, ?_, acyclic_move hv hn (by simp)⟩ <;> unfold NothingOn HandEmpty movePos at * <;> grind
  | putDown x hx hp =>
    have hn : NothingOn blocks pos x := fun z hz h => (h1 z x hz h).2 hp
    refine ⟨?_, ?_, ?_, acyclic_move hv hn (by simp)⟩ <;> unfold NothingOn movePos at * <;> grind
  | unstack x y hx hy hp hn he =>
    refine ⟨?_, ?_, ?_, acyclic_move hv hn (by simp)⟩ <;> unfold NothingOn HandEmpty movePos at * <;> grind
  | stack x y hx hy hp hxy hn =>
    have hn' : NothingOn blocks pos x := fun z hz h => (h1 z x hz h).2 hp
    refine ⟨?_, ?_, ?_, acyclic_move hv hn' (by simpa using fun h => hxy h.symm)⟩ <;> unfold NothingOn movePos at * <;> grind

theorem ground_pickUp (x : String) : groundSchema bwPickUp (bwBind [bwX] [x]) = .ok ⟨.comp .tuple .and
    [.atom (.user "clear") [(bwObj x).toTerm], .atom (.user "ontable") [(bwObj x).toTerm], .atom (.user "handempty") []],
    [delEff "ontable" [bwObj x], delEff "clear" [bwObj x], delEff "handempty" [], addEff "holding" [bwObj x]]⟩ := rfl

theorem ground_putDown (x : String) : groundSchema bwPutDown (bwBind [bwX] [x]) = .ok
    ⟨.atom (.user "holding") [(bwObj x).toTerm],
    [addEff "ontable" [bwObj x], addEff "clear" [bwObj x], addEff "handempty" [], delEff "holding" [bwObj x]]⟩ := rfl

theorem ground_unstack (x y : String) : groundSchema bwUnstack (bwBind [bwX, bwY] [x, y]) = .ok ⟨.comp .tuple .and
    [.atom (.user "on") [(bwObj x).toTerm, (bwObj y).toTerm], .atom (.user "clear") [(bwObj x).toTerm],
     .atom (.user "handempty") []],
    [delEff "on" [bwObj x, bwObj y], addEff "clear" [bwObj y], delEff "clear" [bwObj x], delEff "handempty" [],
     addEff "holding" [bwObj x]]⟩ := rfl

theorem ground_stack (u : Bool) (x y : String) : groundSchema (bwStack u) (bwBind [bwX, bwY] [x, y]) = .ok ⟨.comp .tuple .and
    ([.atom (.user "holding") [(bwObj x).toTerm], .atom (.user "clear") [(bwObj y).toTerm]] ++
     if u then [.atom (.cmp .ne) [(bwObj x).toTerm, (bwObj y).toTerm]] else []),
    [addEff "on" [bwObj x, bwObj y], delEff "clear" [bwObj y], addEff "clear" [bwObj x], addEff "handempty" [],
     delEff "holding" [bwObj x]]⟩ := by cases u <;> rfl

theorem evFormula_atom (L : MLang) (m : MState) (p : String) (cs : List Const) :
    evFormula L m noSigma (.atom (.user p) (cs.map Const.toTerm)) = .ok (m.holds L p cs) := by
  have : ∀ cs : List Const, evTerms L m noSigma .eval (cs.map Const.toTerm) = .ok cs := by
    intro cs
    induction cs with
    | nil => simp [evTerms]
    | cons c cs ih => simp [evTerms, Const.toTerm, evTerm] at ih ⊢; rw [ih]
  rw [evFormula, this]

theorem evAll_ok (L : MLang) (m : MState) (fs : List Formula) (P : Formula → Prop)
    (h : ∀ f ∈ fs, ∃ b, evFormula L m noSigma f = .ok b ∧ (b = true ↔ P f)) :
    ∃ b, evAll L m noSigma fs = .ok b ∧ (b = true ↔ ∀ f ∈ fs, P f) := by
  induction fs with
  | nil => exact ⟨true, by simp [evAll]⟩
  | cons f fs ih =>
    obtain ⟨b, h1, h2⟩ := h f (.head _)
    obtain ⟨c, h3, h4⟩ := ih (fun g hg => h g (.tail _ hg))
    cases b with
    | false => exact ⟨false, by simp [evAll, h1], by simpa using fun h => absurd (h2.2 h) (by simp)⟩
    | true => exact ⟨c, by simp [evAll, h1, h3], by simp [h4, h2.1 rfl]⟩

/-- The step from the description of one state to that of its successor. -/
theorem describes_progress {blocks : List String} {m : MState} {es : List Effect} (dom : Domains)
    (hes : ∀ e ∈ es, ∃ p pt, e = addEff p pt ∨ e = delEff p pt)
    (hw : ∀ p pt, addEff p pt ∈ es → WellTyped (bwStripsLang blocks) p pt) :
    ∃ m', progress (bwStripsLang blocks) dom m es = .ok m' ∧
      ∀ p pt, m'.holds (bwStripsLang blocks) p pt = true ↔
        addEff p pt ∈ es ∨ (m.holds (bwStripsLang blocks) p pt = true ∧ delEff p pt ∉ es) := by
  obtain ⟨m', h⟩ := (C24_returns (bwStripsLang blocks) dom m es hes).2 hw
  exact ⟨m', h, (C24_progress (bwStripsLang blocks) dom m m' es hes h).1⟩

theorem addEff_ne_delEff {p q pt qt} : addEff p pt ≠ delEff q qt := by simp [addEff, delEff]
theorem delEff_ne_addEff {p q pt qt} : delEff p pt ≠ addEff q qt := by simp [addEff, delEff]

theorem evAll3 {L : MLang} {m : MState} {f g h : Formula} {a b c : Bool}
    {es : List Effect} (h1 : evFormula L m noSigma f = .ok a)
    (h2 : evFormula L m noSigma g = .ok b) (h3 : evFormula L m noSigma h = .ok c) :
    isApplicable L m ⟨.comp .tuple .and [f, g, h], es⟩ = .ok (a && (b && c)) := by
  simp only [isApplicable]
  rw [evFormula, evAll, h1, evAll, h2, evAll, h3, evAll]
  cases a <;> cases b <;> cases c <;> rfl

theorem step_pickUp {blocks m pos x} (dom : Domains) (hx : x ∈ blocks)
    (hd : DescribesPos blocks (bwStripsLang blocks) m pos) {o} (ho : groundSchema bwPickUp (bwBind [bwX] [x]) = .ok o) :
    ∃ b, isApplicable (bwStripsLang blocks) m o = .ok b ∧
      (b = true ↔ pos x = .table ∧ NothingOn blocks pos x ∧ HandEmpty blocks pos) ∧
      (b = true → ∃ m', progress (bwStripsLang blocks) dom m o.effs = .ok m' ∧
        DescribesPos blocks (bwStripsLang blocks) m' (movePos pos x .hand)) := by
  rw [ground_pickUp] at ho
  cases ho
  have c1 : m.holds (bwStripsLang blocks) "clear" [bwObj x] = true ↔ pos x ≠ .hand ∧ NothingOn blocks pos x := by
    rw [hd.clear]; simp [bwObj_inj, hx]
  have c2 : m.holds (bwStripsLang blocks) "ontable" [bwObj x] = true ↔ pos x = .table := by
    rw [hd.ontable]; simp [bwObj_inj, hx]
  have c3 : m.holds (bwStripsLang blocks) "handempty" [] = true ↔ HandEmpty blocks pos := by
    rw [hd.handempty]; simp
  refine ⟨_, evAll3 (evFormula_atom _ m "clear" [bwObj x]) (evFormula_atom _ m "ontable" [bwObj x])
    (evFormula_atom _ m "handempty" []), ?_, ?_⟩
  · simp only [Bool.and_eq_true, c1, c2, c3]
    constructor
    · rintro ⟨⟨-, h1⟩, h2, h3⟩; exact ⟨h2, h1, h3⟩
    · rintro ⟨h2, h1, h3⟩; exact ⟨⟨by simp [h2], h1⟩, h2, h3⟩
  · intro hb
    simp only [Bool.and_eq_true, c1, c2, c3] at hb
    obtain ⟨m', h1, h2⟩ := describes_progress (blocks := blocks) (m := m) (es := [delEff "ontable" [bwObj x],
      delEff "clear" [bwObj x], delEff "handempty" [], addEff "holding" [bwObj x]]) dom
      (by simp only [List.mem_cons, List.not_mem_nil, or_false, forall_eq_or_imp, forall_eq]
          exact ⟨⟨_, _, .inr rfl⟩, ⟨_, _, .inr rfl⟩, ⟨_, _, .inr rfl⟩, ⟨_, _, .inl rfl⟩⟩)
      (by intro p pt h
          simp only [List.mem_cons, addEff_ne_delEff, addEff_inj, List.not_mem_nil, or_false, false_or] at h
          obtain ⟨rfl, rfl⟩ := h
          simp [WellTyped, bwStripsLang, bwObj])
    refine ⟨m', h1, ?_⟩
    simp only [List.mem_cons, addEff_ne_delEff, delEff_ne_addEff, addEff_inj, delEff_inj, List.not_mem_nil, or_false,
      false_or, not_or] at h2
    obtain ⟨⟨-, k1⟩, k2, k3⟩ := hb
    unfold NothingOn HandEmpty at *
    refine ⟨?_, ?_, ?_, ?_, ?_⟩ <;> intro pt <;> rw [h2]
    · rw [hd.on]; unfold movePos; grind [bwObj_inj]
    · rw [hd.ontable]; unfold movePos; grind [bwObj_inj]
    · rw [hd.holding]; unfold movePos; grind [bwObj_inj]
    · rw [hd.clear]; unfold movePos NothingOn; grind [bwObj_inj]
    · rw [hd.handempty]; unfold movePos HandEmpty; grind [bwObj_inj]

theorem evAll2 {L : MLang} {m : MState} {f g : Formula} {a b : Bool} {es : List Effect}
    (h1 : evFormula L m noSigma f = .ok a) (h2 : evFormula L m noSigma g = .ok b) :
    isApplicable L m ⟨.comp .tuple .and [f, g], es⟩ = .ok (a && b) := by
  simp only [isApplicable]
  rw [evFormula, evAll, h1, evAll, h2, evAll]
  cases a <;> cases b <;> rfl

theorem step_putDown {blocks m pos x} (dom : Domains) (hx : x ∈ blocks) (hv : ValidPos blocks pos)
    (hd : DescribesPos blocks (bwStripsLang blocks) m pos) {o} (ho : groundSchema bwPutDown (bwBind [bwX] [x]) = .ok o) :
    ∃ b, isApplicable (bwStripsLang blocks) m o = .ok b ∧ (b = true ↔ pos x = .hand) ∧
      (b = true → ∃ m', progress (bwStripsLang blocks) dom m o.effs = .ok m' ∧
        DescribesPos blocks (bwStripsLang blocks) m' (movePos pos x .table)) := by
  rw [ground_putDown] at ho
  cases ho
  have c1 : m.holds (bwStripsLang blocks) "holding" [bwObj x] = true ↔ pos x = .hand := by
    rw [hd.holding]; simp [bwObj_inj, hx]
  refine ⟨_, evFormula_atom _ m "holding" [bwObj x], c1, ?_⟩
  intro hb
  rw [c1] at hb
  obtain ⟨m', h1, h2⟩ := describes_progress (blocks := blocks) (m := m) (es := [addEff "ontable" [bwObj x],
    addEff "clear" [bwObj x], addEff "handempty" [], delEff "holding" [bwObj x]]) dom
    (by simp only [List.mem_cons, List.not_mem_nil, or_false, forall_eq_or_imp, forall_eq]
        exact ⟨⟨_, _, .inl rfl⟩, ⟨_, _, .inl rfl⟩, ⟨_, _, .inl rfl⟩, ⟨_, _, .inr rfl⟩⟩)
    (by intro p pt h
        simp only [List.mem_cons, addEff_ne_delEff, addEff_inj, List.not_mem_nil, or_false] at h
        rcases h with ⟨rfl, rfl⟩ | ⟨rfl, rfl⟩ | ⟨rfl, rfl⟩ <;> simp [WellTyped, bwStripsLang, bwObj])
  refine ⟨m', h1, ?_⟩
  simp only [List.mem_cons, addEff_ne_delEff, delEff_ne_addEff, addEff_inj, delEff_inj, List.not_mem_nil, or_false,
    false_or] at h2
  have v1 := hv.support
  have v2 := hv.oneHand
  refine ⟨?_, ?_, ?_, ?_, ?_⟩ <;> intro pt <;> rw [h2]
  · rw [hd.on]; unfold movePos; grind [bwObj_inj]
  · rw [hd.ontable]; unfold movePos; grind [bwObj_inj]
  · rw [hd.holding]; unfold movePos; grind [bwObj_inj]
  · rw [hd.clear]; unfold movePos NothingOn; grind [bwObj_inj]
  · rw [hd.handempty]; unfold movePos HandEmpty; grind [bwObj_inj]

theorem step_unstack {blocks m pos x y} (dom : Domains) (hx : x ∈ blocks) (hy : y ∈ blocks) (hv : ValidPos blocks pos)
    (hd : DescribesPos blocks (bwStripsLang blocks) m pos) {o}
    (ho : groundSchema bwUnstack (bwBind [bwX, bwY] [x, y]) = .ok o) :
    ∃ b, isApplicable (bwStripsLang blocks) m o = .ok b ∧
      (b = true ↔ pos x = .on y ∧ NothingOn blocks pos x ∧ HandEmpty blocks pos) ∧
      (b = true → ∃ m', progress (bwStripsLang blocks) dom m o.effs = .ok m' ∧
        DescribesPos blocks (bwStripsLang blocks) m' (movePos pos x .hand)) := by
  rw [ground_unstack] at ho
  cases ho
  have c1 : m.holds (bwStripsLang blocks) "clear" [bwObj x] = true ↔ pos x ≠ .hand ∧ NothingOn blocks pos x := by
    rw [hd.clear]; simp [bwObj_inj, hx]
  have c2 : m.holds (bwStripsLang blocks) "on" [bwObj x, bwObj y] = true ↔ pos x = .on y := by
    rw [hd.on]; simp [bwObj_inj, hx, hy]
  have c3 : m.holds (bwStripsLang blocks) "handempty" [] = true ↔ HandEmpty blocks pos := by
    rw [hd.handempty]; simp
  refine ⟨_, evAll3 (evFormula_atom _ m "on" [bwObj x, bwObj y]) (evFormula_atom _ m "clear" [bwObj x])
    (evFormula_atom _ m "handempty" []), ?_, ?_⟩
  · simp only [Bool.and_eq_true, c1, c2, c3]
    constructor
    · rintro ⟨h2, ⟨-, h1⟩, h3⟩; exact ⟨h2, h1, h3⟩
    · rintro ⟨h2, h1, h3⟩; exact ⟨h2, ⟨by simp [h2], h1⟩, h3⟩
  · intro hb
    simp only [Bool.and_eq_true, c1, c2, c3] at hb
    obtain ⟨m', h1, h2⟩ := describes_progress (blocks := blocks) (m := m) (es := [delEff "on" [bwObj x, bwObj y],
      addEff "clear" [bwObj y], delEff "clear" [bwObj x], delEff "handempty" [], addEff "holding" [bwObj x]]) dom
      (by simp only [List.mem_cons, List.not_mem_nil, or_false, forall_eq_or_imp, forall_eq]
          exact ⟨⟨_, _, .inr rfl⟩, ⟨_, _, .inl rfl⟩, ⟨_, _, .inr rfl⟩, ⟨_, _, .inr rfl⟩, ⟨_, _, .inl rfl⟩⟩)
      (by intro p pt h
          simp only [List.mem_cons, addEff_ne_delEff, addEff_inj, List.not_mem_nil, or_false, false_or] at h
          rcases h with ⟨rfl, rfl⟩ | ⟨rfl, rfl⟩ <;> simp [WellTyped, bwStripsLang, bwObj])
    refine ⟨m', h1, ?_⟩
    simp only [List.mem_cons, addEff_ne_delEff, delEff_ne_addEff, addEff_inj, delEff_inj, List.not_mem_nil, or_false,
      false_or, not_or] at h2
    obtain ⟨k2, ⟨-, k1⟩, k3⟩ := hb
    have v1 := hv.support
    have v2 := hv.single
    have hxy : x ≠ y := by rintro rfl; exact k1 x hx k2
    unfold NothingOn HandEmpty at *
    refine ⟨?_, ?_, ?_, ?_, ?_⟩ <;> intro pt <;> rw [h2]
    · rw [hd.on]; unfold movePos; grind [bwObj_inj]
    · rw [hd.ontable]; unfold movePos; grind [bwObj_inj]
    · rw [hd.holding]; unfold movePos; grind [bwObj_inj]
    · rw [hd.clear]; unfold movePos NothingOn; grind [bwObj_inj]
    · rw [hd.handempty]; unfold movePos HandEmpty; grind [bwObj_inj]

theorem step_stack {blocks m pos x y} (dom : Domains) (u : Bool) (hx : x ∈ blocks) (hy : y ∈ blocks)
    (hv : ValidPos blocks pos) (hd : DescribesPos blocks (bwStripsLang blocks) m pos) {o}
    (ho : groundSchema (bwStack u) (bwBind [bwX, bwY] [x, y]) = .ok o) :
    ∃ b, isApplicable (bwStripsLang blocks) m o = .ok b ∧
      (b = true ↔ pos x = .hand ∧ x ≠ y ∧ NothingOn blocks pos y) ∧
      (b = true → ∃ m', progress (bwStripsLang blocks) dom m o.effs = .ok m' ∧
        DescribesPos blocks (bwStripsLang blocks) m' (movePos pos x (.on y))) := by
  rw [ground_stack] at ho
  cases ho
  have c1 : m.holds (bwStripsLang blocks) "clear" [bwObj y] = true ↔ pos y ≠ .hand ∧ NothingOn blocks pos y := by
    rw [hd.clear]; simp [bwObj_inj, hy]
  have c2 : m.holds (bwStripsLang blocks) "holding" [bwObj x] = true ↔ pos x = .hand := by
    rw [hd.holding]; simp [bwObj_inj, hx]
  have hone := hv.oneHand
  have app : ∃ b, isApplicable (bwStripsLang blocks) m ⟨.comp .tuple .and
      ([.atom (.user "holding") [(bwObj x).toTerm], .atom (.user "clear") [(bwObj y).toTerm]] ++
      if u then [.atom (.cmp .ne) [(bwObj x).toTerm, (bwObj y).toTerm]] else []),
      [addEff "on" [bwObj x, bwObj y], delEff "clear" [bwObj y], addEff "clear" [bwObj x], addEff "handempty" [],
      delEff "holding" [bwObj x]]⟩ = .ok b ∧ (b = true ↔ pos x = .hand ∧ x ≠ y ∧ NothingOn blocks pos y) := by
    have hcmp : evFormula (bwStripsLang blocks) m noSigma (.atom (.cmp .ne) [(bwObj x).toTerm, (bwObj y).toTerm]) =
        .ok (decide (x ≠ y)) := by
      rw [evFormula]
      simp only [evTerms, evTerm, Const.toTerm, cmpNames, bwObj]
      simp
    cases u with
    | false =>
      refine ⟨_, evAll2 (evFormula_atom _ m "holding" [bwObj x]) (evFormula_atom _ m "clear" [bwObj y]), ?_⟩
      simp only [Bool.and_eq_true, c1, c2]
      constructor
      · rintro ⟨h1, h2, h3⟩; exact ⟨h1, by rintro rfl; exact h2 h1, h3⟩
      · rintro ⟨h1, h2, h3⟩; exact ⟨h1, fun h => h2 (hone x y hx hy h1 h), h3⟩
    | true =>
      refine ⟨_, evAll3 (evFormula_atom _ m "holding" [bwObj x]) (evFormula_atom _ m "clear" [bwObj y]) hcmp, ?_⟩
      simp only [Bool.and_eq_true, c1, c2, decide_eq_true_eq]
      constructor
      · rintro ⟨h1, ⟨h2, h3⟩, h4⟩; exact ⟨h1, h4, h3⟩
      · rintro ⟨h1, h2, h3⟩; exact ⟨h1, ⟨fun h => h2 (hone x y hx hy h1 h), h3⟩, h2⟩
  obtain ⟨b, happ, hb⟩ := app
  refine ⟨b, happ, hb, ?_⟩
  · intro hb'
    rw [hb] at hb'
    obtain ⟨m', h1, h2⟩ := describes_progress (blocks := blocks) (m := m) (es := [addEff "on" [bwObj x, bwObj y],
      delEff "clear" [bwObj y], addEff "clear" [bwObj x], addEff "handempty" [], delEff "holding" [bwObj x]]) dom
      (by simp only [List.mem_cons, List.not_mem_nil, or_false, forall_eq_or_imp, forall_eq]
          exact ⟨⟨_, _, .inl rfl⟩, ⟨_, _, .inr rfl⟩, ⟨_, _, .inl rfl⟩, ⟨_, _, .inl rfl⟩, ⟨_, _, .inr rfl⟩⟩)
      (by intro p pt h
          simp only [List.mem_cons, addEff_ne_delEff, addEff_inj, List.not_mem_nil, or_false, false_or] at h
          rcases h with ⟨rfl, rfl⟩ | ⟨rfl, rfl⟩ | ⟨rfl, rfl⟩ <;> simp [WellTyped, bwStripsLang, bwObj])
    refine ⟨m', h1, ?_⟩
    simp only [List.mem_cons, addEff_ne_delEff, delEff_ne_addEff, addEff_inj, delEff_inj, List.not_mem_nil, or_false,
      false_or] at h2
    obtain ⟨k2, k1, k3⟩ := hb'
    have v1 := hv.support
    unfold NothingOn at k3
    refine ⟨?_, ?_, ?_, ?_, ?_⟩ <;> intro pt <;> rw [h2]
    · rw [hd.on]; unfold movePos; grind [bwObj_inj]
    · rw [hd.ontable]; unfold movePos; grind [bwObj_inj]
    · rw [hd.holding]; unfold movePos; grind [bwObj_inj]
    · rw [hd.clear]; unfold movePos NothingOn; grind [bwObj_inj]
    · rw [hd.handempty]; unfold movePos HandEmpty; grind [bwObj_inj]

/-- The actions of a generated problem. -/
def bwActions (u : Bool) : List (String × Schema) :=
  [("pick-up", bwPickUp), ("put-down", bwPutDown), ("unstack", bwUnstack), ("stack", bwStack u)]

theorem bwOp_cases {P : BenchProblem} {blocks : List String} {u : Bool} (hP : P.actions = bwActions u) {name xs o}
    (h : BWOp P blocks name xs o) :
    (name = "pick-up" ∧ ∃ x ∈ blocks, xs = [x] ∧ groundSchema bwPickUp (bwBind [bwX] [x]) = .ok o) ∨
    (name = "put-down" ∧ ∃ x ∈ blocks, xs = [x] ∧ groundSchema bwPutDown (bwBind [bwX] [x]) = .ok o) ∨
    (name = "unstack" ∧ ∃ x ∈ blocks, ∃ y ∈ blocks, xs = [x, y] ∧
      groundSchema bwUnstack (bwBind [bwX, bwY] [x, y]) = .ok o) ∨
    (name = "stack" ∧ ∃ x ∈ blocks, ∃ y ∈ blocks, xs = [x, y] ∧
      groundSchema (bwStack u) (bwBind [bwX, bwY] [x, y]) = .ok o) := by
  obtain ⟨h1, a, h2, h3, h4⟩ := h
  rw [hP] at h2
  simp only [bwActions, List.mem_cons, Prod.mk.injEq, List.not_mem_nil, or_false] at h2
  rcases h2 with ⟨rfl, rfl⟩ | ⟨rfl, rfl⟩ | ⟨rfl, rfl⟩ | ⟨rfl, rfl⟩
  · obtain ⟨x, rfl⟩ := List.length_eq_one_iff.1 h3.symm
    exact .inl ⟨rfl, x, h1 x (.head _), rfl, h4⟩
  · obtain ⟨x, rfl⟩ := List.length_eq_one_iff.1 h3.symm
    exact .inr (.inl ⟨rfl, x, h1 x (.head _), rfl, h4⟩)
  · obtain ⟨x, y, rfl⟩ := List.length_eq_two.1 h3.symm
    exact .inr (.inr (.inl ⟨rfl, x, h1 x (.head _), y, h1 y (.tail _ (.head _)), rfl, h4⟩))
  · obtain ⟨x, y, rfl⟩ := List.length_eq_two.1 h3.symm
    exact .inr (.inr (.inr ⟨rfl, x, h1 x (.head _), y, h1 y (.tail _ (.head _)), rfl, h4⟩))

theorem bmove_iff {blocks pos name xs q} : BMove blocks pos name xs q ↔
    (name = "pick-up" ∧ ∃ x ∈ blocks, xs = [x] ∧ q = movePos pos x .hand ∧
      pos x = .table ∧ NothingOn blocks pos x ∧ HandEmpty blocks pos) ∨
    (name = "put-down" ∧ ∃ x ∈ blocks, xs = [x] ∧ q = movePos pos x .table ∧ pos x = .hand) ∨
    (name = "unstack" ∧ ∃ x ∈ blocks, ∃ y ∈ blocks, xs = [x, y] ∧ q = movePos pos x .hand ∧
      pos x = .on y ∧ NothingOn blocks pos x ∧ HandEmpty blocks pos) ∨
    (name = "stack" ∧ ∃ x ∈ blocks, ∃ y ∈ blocks, xs = [x, y] ∧ q = movePos pos x (.on y) ∧
      pos x = .hand ∧ x ≠ y ∧ NothingOn blocks pos y) := by
  constructor
  · intro h
    cases h with
    | pickUp x hx a b c => exact .inl ⟨rfl, x, hx, rfl, rfl, a, b, c⟩
    | putDown x hx a => exact .inr (.inl ⟨rfl, x, hx, rfl, rfl, a⟩)
    | unstack x y hx hy a b c => exact .inr (.inr (.inl ⟨rfl, x, hx, y, hy, rfl, rfl, a, b, c⟩))
    | stack x y hx hy a b c => exact .inr (.inr (.inr ⟨rfl, x, hx, y, hy, rfl, rfl, a, b, c⟩))
  · rintro (⟨rfl, x, hx, rfl, rfl, a, b, c⟩ | ⟨rfl, x, hx, rfl, rfl, a⟩ | ⟨rfl, x, hx, y, hy, rfl, rfl, a, b, c⟩ |
      ⟨rfl, x, hx, y, hy, rfl, rfl, a, b, c⟩)
    · exact .pickUp x hx a b c
    · exact .putDown x hx a
    · exact .unstack x y hx hy a b c
    · exact .stack x y hx hy a b c

theorem bw_step {P : BenchProblem} {blocks : List String} {u : Bool} (hP : P.actions = bwActions u)
    (hL : P.lang = bwStripsLang blocks) (dom : Domains) {m pos} (hv : ValidPos blocks pos)
    (hd : DescribesPos blocks P.lang m pos) {name xs o} (ho : BWOp P blocks name xs o) :
    ∃ b, isApplicable P.lang m o = .ok b ∧ (b = true ↔ ∃ pos', BMove blocks pos name xs pos') ∧
      ∀ pos', BMove blocks pos name xs pos' → ∃ m', progress P.lang dom m o.effs = .ok m' ∧
        ValidPos blocks pos' ∧ DescribesPos blocks P.lang m' pos' := by
  rw [hL] at hd ⊢
  -- from the outcome of one action to the general statement
  have wrap : ∀ {b : Bool} {C : Prop} {q : String → BPlace}, isApplicable (bwStripsLang blocks) m o = .ok b → (b = true ↔ C) →
      (b = true → ∃ m', progress (bwStripsLang blocks) dom m o.effs = .ok m' ∧
        DescribesPos blocks (bwStripsLang blocks) m' q) →
      (C ↔ BMove blocks pos name xs q) → (∀ pos', BMove blocks pos name xs pos' → pos' = q) →
      ∃ b, isApplicable (bwStripsLang blocks) m o = .ok b ∧ (b = true ↔ ∃ pos', BMove blocks pos name xs pos') ∧
        ∀ pos', BMove blocks pos name xs pos' → ∃ m', progress (bwStripsLang blocks) dom m o.effs = .ok m' ∧
          ValidPos blocks pos' ∧ DescribesPos blocks (bwStripsLang blocks) m' pos' := by
    intro b C q h1 h2 h3 h4 h5
    refine ⟨b, h1, ?_, ?_⟩
    · rw [h2, h4]
      exact ⟨fun h => ⟨q, h⟩, fun ⟨p, hp⟩ => by rwa [h5 p hp] at hp⟩
    · intro pos' hp
      have := h5 pos' hp
      subst this
      obtain ⟨m', h6, h7⟩ := h3 (h2.2 (h4.2 hp))
      exact ⟨m', h6, bmove_valid hv hp, h7⟩
  rcases bwOp_cases hP ho with ⟨rfl, x, hx, rfl, hg⟩ | ⟨rfl, x, hx, rfl, hg⟩ | ⟨rfl, x, hx, y, hy, rfl, hg⟩ |
    ⟨rfl, x, hx, y, hy, rfl, hg⟩
  · obtain ⟨b, h1, h2, h3⟩ := step_pickUp dom hx hd hg
    refine wrap h1 h2 h3 ?_ ?_ <;> simp [bmove_iff, hx]
  · obtain ⟨b, h1, h2, h3⟩ := step_putDown dom hx hv hd hg
    refine wrap h1 h2 h3 ?_ ?_ <;> simp [bmove_iff, hx]
  · obtain ⟨b, h1, h2, h3⟩ := step_unstack dom hx hy hv hd hg
    refine wrap h1 h2 h3 ?_ ?_ <;> simp [bmove_iff, hx, hy]
  · obtain ⟨b, h1, h2, h3⟩ := step_stack dom u hx hy hv hd hg
    refine wrap h1 h2 h3 ?_ ?_ <;> simp [bmove_iff, hx, hy]

/-! The initial state. -/

theorem getConst_ok {blocks : List String} {x : String} (hx : x ∈ blocks) :
    getConst (blocks.map (fun b => (b, "object"))) x = .ok (bwObj x) := by
  unfold getConst
  induction blocks with
  | nil => cases hx
  | cons b bs ih =>
    by_cases h : b = x
    · subst h; simp [bwObj]
    · have hx' : x ∈ bs := by cases hx with
        | head => exact absurd rfl h
        | tail _ h => exact h
      simpa [h] using ih hx'

/-- The effect that adds the atom of a location. -/
def locEff (xy : String × String) : Effect :=
  if xy.2 = "table" then addEff "ontable" [bwObj xy.1] else addEff "on" [bwObj xy.1, bwObj xy.2]

theorem apply_addEff_eq (L : MLang) (dom : Domains) (m : MState) (p pt) :
    applyEffect L dom m (addEff p pt) = raising (m.add L (.user p) (pt.map Arg.const)) := by
  unfold applyEffect applyFuel addEff
  simp only [Effect.cond, evFormula, termArg_toTerm]

theorem addLocs_eq {blocks : List String} (dom : Domains) : ∀ (locs : List (String × String)) (m : MState),
    (∀ xy ∈ locs, xy.1 ∈ blocks ∧ (xy.2 = "table" ∨ xy.2 ∈ blocks)) →
    seqApply (bwAddLoc (bwStripsLang blocks) (blocks.map (fun b => (b, "object")))) m locs =
      seqApply (applyEffect (bwStripsLang blocks) dom) m (locs.map locEff)
  | [], m, _ => by simp [seqApply]
  | xy :: locs, m, h => by
    have h1 := h xy (.head _)
    have : bwAddLoc (bwStripsLang blocks) (blocks.map (fun b => (b, "object"))) m xy =
        applyEffect (bwStripsLang blocks) dom m (locEff xy) := by
      unfold bwAddLoc locEff
      rw [getConst_ok h1.1]
      by_cases ht : xy.2 = "table"
      · simp only [ht, if_true]; rw [apply_addEff_eq]; rfl
      · rw [getConst_ok (h1.2.resolve_left ht)]; simp only [ht, if_false]; rw [apply_addEff_eq]; rfl
    simp only [List.map_cons, seqApply, this]
    cases applyEffect (bwStripsLang blocks) dom m (locEff xy) with
    | error e => rfl
    | ok m' => exact addLocs_eq dom locs m' (fun p hp => h p (.tail _ hp))

theorem addClear_eq {blocks : List String} (dom : Domains) : ∀ (cl : List String) (m : MState),
    (∀ x ∈ cl, x = "table" ∨ x ∈ blocks) →
    seqApply (bwAddClear (bwStripsLang blocks) (blocks.map (fun b => (b, "object")))) m cl =
      seqApply (applyEffect (bwStripsLang blocks) dom) m
        ((cl.filter (fun x => decide (x ≠ "table"))).map (fun x => addEff "clear" [bwObj x]))
  | [], m, _ => by simp [seqApply]
  | x :: cl, m, h => by
    have ih := fun m => addClear_eq dom cl m (fun p hp => h p (.tail _ hp))
    by_cases ht : x = "table"
    · have : bwAddClear (bwStripsLang blocks) (blocks.map (fun b => (b, "object"))) m x = .ok m := by simp [bwAddClear, ht]
      simp only [seqApply, this, ih]
      rw [List.filter_cons_of_neg (by simp [ht])]
    · have : bwAddClear (bwStripsLang blocks) (blocks.map (fun b => (b, "object"))) m x =
          applyEffect (bwStripsLang blocks) dom m (addEff "clear" [bwObj x]) := by
        unfold bwAddClear
        rw [getConst_ok ((h x (.head _)).resolve_left ht), apply_addEff_eq]
        simp [ht]
      rw [List.filter_cons_of_pos (by simp [ht])]
      simp only [List.map_cons, seqApply, this]
      cases applyEffect (bwStripsLang blocks) dom m (addEff "clear" [bwObj x]) with
      | error e => rfl
      | ok m' => exact ih m'

/-- The position of the blocks in a pattern. -/
def posOf (pat : List (String × String)) (x : String) : BPlace :=
  match pat.find? (fun p => p.1 == x) with
  | some p => placeOf p.2
  | none => .table

theorem posOf_mem {pat x y} (hB : Build pat) (h : (x, y) ∈ pat) : posOf pat x = placeOf y := by
  have hn := build_nodup hB
  clear hB
  unfold posOf
  induction pat with
  | nil => cases h
  | cons p pat ih =>
    simp only [List.map_cons, List.nodup_cons] at hn
    by_cases hp : p.1 = x
    · have : p = (x, y) := by
        cases h with
        | head => rfl
        | tail _ h => exact absurd (List.mem_map_of_mem (f := (·.1)) h) (by rw [← hp]; exact hn.1)
      subst this
      simp
    · have h' : (x, y) ∈ pat := by
        cases h with
        | head => exact absurd rfl hp
        | tail _ h => exact h
      have := ih h' hn.2
      simpa [hp] using this

theorem posOf_not_mem {pat x} (h : x ∉ pat.map (·.1)) : posOf pat x = .table := by
  unfold posOf
  have : pat.find? (fun p => p.1 == x) = none := by
    rw [List.find?_eq_none]
    intro p hp hx
    exact h (List.mem_map.2 ⟨p, hp, by simpa using hx⟩)
  rw [this]

theorem placeOf_eq_on {t y} : placeOf t = .on y ↔ t = y ∧ t ≠ "table" := by
  unfold placeOf; split <;> simp_all

theorem posOf_on {pat x y} (hB : Build pat) : posOf pat x = .on y ↔ (x, y) ∈ pat ∧ y ≠ "table" := by
  constructor
  · intro h
    by_cases hx : x ∈ pat.map (·.1)
    · obtain ⟨⟨x', t⟩, h1, h2⟩ := List.mem_map.1 hx
      simp only at h2
      subst h2
      rw [posOf_mem hB h1, placeOf_eq_on] at h
      obtain ⟨rfl, h⟩ := h
      exact ⟨h1, h⟩
    · rw [posOf_not_mem hx] at h; cases h
  · rintro ⟨h1, h2⟩
    rw [posOf_mem hB h1, placeOf_eq_on]; exact ⟨rfl, h2⟩

theorem posOf_ne_hand {pat x} (hB : Build pat) : posOf pat x ≠ .hand := by
  by_cases hx : x ∈ pat.map (·.1)
  · obtain ⟨⟨x', t⟩, h1, h2⟩ := List.mem_map.1 hx
    simp only at h2
    subst h2
    rw [posOf_mem hB h1]; unfold placeOf; split <;> simp
  · rw [posOf_not_mem hx]; simp

theorem posOf_valid {pat blocks} (hB : Build pat) (hb : ∀ x ∈ pat.map (·.1), x ∈ blocks) :
    ValidPos blocks (posOf pat) := by
  obtain ⟨r, hr⟩ := build_rank hB
  refine ⟨?_, ?_, ?_, validPos_rank r ?_⟩
  · intro x y _ h
    rw [posOf_on hB] at h
    exact ⟨hb y ((build_support hB x y h.1).resolve_left h.2), posOf_ne_hand hB⟩
  · intro x x' y _ _ h1 h2
    rw [posOf_on hB] at h1 h2
    exact (build_single hB x x' y h1.1 h2.1).resolve_left h1.2
  · intro x x' _ _ h
    exact absurd h (posOf_ne_hand hB)
  · intro x _ y h
    rw [posOf_on hB] at h
    exact (hr x y h.1).resolve_left h.2

theorem init_describes {blocks cl : List String} {pat : List (String × String)} (hB : Build pat) (hc : ClearIn pat cl)
    (hp : (pat.map (·.1)).Perm blocks) :
    ∃ m, bwStripsInit blocks cl pat = .ok m ∧ DescribesPos blocks (bwStripsLang blocks) m (posOf pat) := by
  have hmem : ∀ x, x ∈ pat.map (·.1) ↔ x ∈ blocks := fun x => hp.mem_iff
  have hnt : "table" ∉ blocks := by rw [← hmem]; exact build_no_table hB
  have hes : ∀ e ∈ pat.map locEff ++ ((cl.filter (fun x => decide (x ≠ "table"))).map (fun x => addEff "clear" [bwObj x]) ++
      [addEff "handempty" []]), ∃ p pt, e = addEff p pt ∨ e = delEff p pt := by
    intro e he
    simp only [List.mem_append, List.mem_map, List.mem_singleton] at he
    rcases he with ⟨xy, -, rfl⟩ | ⟨x, -, rfl⟩ | rfl
    · unfold locEff; split <;> exact ⟨_, _, .inl rfl⟩
    · exact ⟨_, _, .inl rfl⟩
    · exact ⟨_, _, .inl rfl⟩
  have hin : ∀ p pt, addEff p pt ∈ pat.map locEff ++ ((cl.filter (fun x => decide (x ≠ "table"))).map
      (fun x => addEff "clear" [bwObj x]) ++ [addEff "handempty" []]) ↔
      (p = "ontable" ∧ ∃ x, (x, "table") ∈ pat ∧ pt = [bwObj x]) ∨
      (p = "on" ∧ ∃ x y, (x, y) ∈ pat ∧ y ≠ "table" ∧ pt = [bwObj x, bwObj y]) ∨
      (p = "clear" ∧ ∃ x ∈ cl, x ≠ "table" ∧ pt = [bwObj x]) ∨ (p = "handempty" ∧ pt = []) := by
    intro p pt
    simp only [List.mem_append, List.mem_map, List.mem_singleton, List.mem_filter, decide_eq_true_eq, addEff_inj]
    constructor
    · rintro (⟨⟨x, y⟩, h1, h2⟩ | ⟨x, h1, h2, h3⟩ | h)
      · unfold locEff at h2
        split at h2
        · rename_i ht
          simp only at ht
          subst ht
          rw [addEff_inj] at h2
          exact .inl ⟨h2.1.symm, x, h1, h2.2.symm⟩
        · rename_i ht
          rw [addEff_inj] at h2
          exact .inr (.inl ⟨h2.1.symm, x, y, h1, ht, h2.2.symm⟩)
      · exact .inr (.inr (.inl ⟨h2.symm, x, h1.1, h1.2, h3.symm⟩))
      · exact .inr (.inr (.inr h))
    · rintro (⟨rfl, x, h, rfl⟩ | ⟨rfl, x, y, h, h', rfl⟩ | ⟨rfl, x, h, h', rfl⟩ | h)
      · exact .inl ⟨_, h, by simp [locEff]⟩
      · exact .inl ⟨_, h, by simp [locEff, h']⟩
      · exact .inr (.inl ⟨x, ⟨h, h'⟩, rfl, rfl⟩)
      · exact .inr (.inr h)
  obtain ⟨m, h1, h2⟩ := describes_progress (blocks := blocks) (m := MState.empty) (fun _ => .ok []) hes (by
    intro p pt h
    rw [hin] at h
    rcases h with ⟨rfl, x, h, rfl⟩ | ⟨rfl, x, y, h, h', rfl⟩ | ⟨rfl, x, h, h', rfl⟩ | ⟨rfl, rfl⟩ <;>
      simp [WellTyped, bwStripsLang, bwObj])
  refine ⟨m, ?_, ?_⟩
  · rw [← h1]
    have hd : delsFirst (pat.map locEff ++ ((cl.filter (fun x => decide (x ≠ "table"))).map (fun x => addEff "clear" [bwObj x]) ++
        [addEff "handempty" []])) = pat.map locEff ++ ((cl.filter (fun x => decide (x ≠ "table"))).map
        (fun x => addEff "clear" [bwObj x]) ++ [addEff "handempty" []]) := by
      have key : ∀ l : List Effect, (∀ e ∈ l, e.isDel = false) → delsFirst l = l := by
        intro l hl
        unfold delsFirst
        rw [List.filter_eq_nil_iff.2 (by intro e he; simp [hl e he]), List.filter_eq_self.2 (by intro e he; simp [hl e he])]
        rfl
      apply key
      intro e he
      simp only [List.mem_append, List.mem_map, List.mem_singleton] at he
      rcases he with ⟨xy, -, rfl⟩ | ⟨x, -, rfl⟩ | rfl
      · unfold locEff; split <;> rfl
      · rfl
      · rfl
    unfold progress bwStripsInit
    rw [hd]
    dsimp only
    rw [addLocs_eq (fun _ => .ok []) pat MState.empty (by
      rintro ⟨x, y⟩ h
      exact ⟨(hmem x).1 (List.mem_map_of_mem (f := (·.1)) h), (build_support hB x y h).imp id (fun h => (hmem y).1 h)⟩)]
    rw [seqApply_append]
    cases seqApply (applyEffect (bwStripsLang blocks) (fun _ => .ok [])) MState.empty (pat.map locEff) with
    | error e => rfl
    | ok m1 =>
      dsimp only
      rw [addClear_eq (fun _ => .ok []) cl m1 (by intro x hx; exact ((hc.2 x).1 hx).imp id (fun h => (hmem x).1 h.1)),
        seqApply_append]
      cases seqApply (applyEffect (bwStripsLang blocks) (fun _ => .ok [])) m1 ((cl.filter (fun x => decide (x ≠ "table"))).map
          (fun x => addEff "clear" [bwObj x])) with
      | error e => rfl
      | ok m2 =>
        simp only [seqApply, apply_addEff_eq, List.map_nil]
        cases raising (MState.add (bwStripsLang blocks) m2 (.user "handempty") []) <;> rfl
  · have he : ∀ p pt, MState.empty.holds (bwStripsLang blocks) p pt = false := by
      intro p pt; simp [MState.holds, MState.empty, dlookup]
    simp only [hin, he, Bool.false_eq_true, false_and, or_false] at h2
    refine ⟨?_, ?_, ?_, ?_, ?_⟩ <;> intro pt <;> rw [h2] <;>
      simp only [String.reduceEq, false_and, true_and, or_false, false_or]
    · constructor
      · rintro ⟨x, y, h, h', rfl⟩
        exact ⟨x, (hmem x).1 (List.mem_map_of_mem (f := (·.1)) h), y,
          (hmem y).1 ((build_support hB x y h).resolve_left h'), rfl, (posOf_on hB).2 ⟨h, h'⟩⟩
      · rintro ⟨x, hx, y, hy, rfl, h⟩
        rw [posOf_on hB] at h
        exact ⟨x, y, h.1, h.2, rfl⟩
    · constructor
      · rintro ⟨x, h, rfl⟩
        exact ⟨x, (hmem x).1 (List.mem_map_of_mem (f := (·.1)) h), rfl, by rw [posOf_mem hB h]; rfl⟩
      · rintro ⟨x, hx, rfl, h⟩
        obtain ⟨⟨x', t⟩, h1, h3⟩ := List.mem_map.1 ((hmem x).2 hx)
        simp only at h3
        subst h3
        rw [posOf_mem hB h1] at h
        unfold placeOf at h
        split at h
        · rename_i ht; subst ht; exact ⟨x', h1, rfl⟩
        · cases h
    · constructor
      · rintro ⟨⟩
      · rintro ⟨x, hx, -, h⟩; exact absurd h (posOf_ne_hand hB)
    · constructor
      · rintro ⟨x, h, h', rfl⟩
        have h3 := ((hc.2 x).1 h).resolve_left h'
        refine ⟨x, (hmem x).1 h3.1, rfl, posOf_ne_hand hB, ?_⟩
        intro z hz hzx
        rw [posOf_on hB] at hzx
        exact h3.2 (List.mem_map_of_mem (f := (·.2)) hzx.1)
      · rintro ⟨x, hx, rfl, -, h⟩
        have hxt : x ≠ "table" := by rintro rfl; exact hnt hx
        refine ⟨x, (hc.2 x).2 (.inr ⟨(hmem x).2 hx, ?_⟩), hxt, rfl⟩
        intro hm
        obtain ⟨⟨z, y⟩, h3, h4⟩ := List.mem_map.1 hm
        simp only at h4
        subst h4
        exact h z ((hmem z).1 (List.mem_map_of_mem (f := (·.1)) h3)) ((posOf_on hB).2 ⟨h3, hxt⟩)
    · constructor
      · rintro rfl; exact ⟨rfl, fun z _ => posOf_ne_hand hB⟩
      · rintro ⟨rfl, -⟩; rfl

/-! The goal. -/

/-- The atom of a location. -/
def bwGoalF (xy : String × String) : Formula :=
  if xy.2 = "table" then .atom (.user "ontable") ([bwObj xy.1].map Const.toTerm)
  else .atom (.user "on") ([bwObj xy.1, bwObj xy.2].map Const.toTerm)

theorem bwGoalAtom_ok {blocks : List String} {xy : String × String} (h1 : xy.1 ∈ blocks)
    (h2 : xy.2 = "table" ∨ xy.2 ∈ blocks) :
    bwGoalAtom (blocks.map (fun b => (b, "object"))) xy = .ok (bwGoalF xy) := by
  unfold bwGoalAtom bwGoalF
  rw [getConst_ok h1]
  by_cases ht : xy.2 = "table"
  · simp only [ht, if_true]; rfl
  · rw [getConst_ok (h2.resolve_left ht)]; simp only [ht, if_false]; rfl

theorem mapExcept_ok {α β} {f : α → Except Err β} {g : α → β} : ∀ {l : List α}, (∀ a ∈ l, f a = .ok (g a)) →
    mapExcept f l = .ok (l.map g)
  | [], _ => rfl
  | a :: l, h => by
    rw [mapExcept, h a (.head _), mapExcept_ok (l := l) (fun b hb => h b (.tail _ hb))]
    rfl

theorem land_flat_eval (L : MLang) (m : MState) (fs : List Formula) (P : Formula → Prop)
    (h : ∀ f ∈ fs, ∃ b, evFormula L m noSigma f = .ok b ∧ (b = true ↔ P f)) :
    ∃ b, evFormula L m noSigma (land fs true) = .ok b ∧ (b = true ↔ ∀ f ∈ fs, P f) := by
  match fs, h with
  | [], _ => exact ⟨true, by simp [land, evFormula]⟩
  | [f], h => obtain ⟨b, h1, h2⟩ := h f (.head _); exact ⟨b, by simpa [land, createCompound] using h1, by simpa using h2⟩
  | f :: g :: fs, h =>
    obtain ⟨b, h1, h2⟩ := evAll_ok L m (f :: g :: fs) P h
    exact ⟨b, by simpa [land, createCompound, evFormula] using h1, h2⟩

theorem goal_eval {blocks : List String} {pat : List (String × String)}
    (hs : ∀ xy ∈ pat, xy.1 ∈ blocks ∧ (xy.2 = "table" ∨ xy.2 ∈ blocks)) :
    ∃ g, bwStripsGoal blocks pat = .ok g ∧ ∀ m pos, DescribesPos blocks (bwStripsLang blocks) m pos →
      ∃ b, evFormula (bwStripsLang blocks) m noSigma g = .ok b ∧
        (b = true ↔ ∀ x y, (x, y) ∈ pat → pos x = placeOf y) := by
  unfold bwStripsGoal
  rw [mapExcept_ok (g := bwGoalF) (fun xy h => bwGoalAtom_ok (hs xy h).1 (hs xy h).2)]
  refine ⟨_, rfl, ?_⟩
  intro m pos hd
  obtain ⟨b, h1, h2⟩ := land_flat_eval (bwStripsLang blocks) m (pat.map bwGoalF) (fun f => evFormula (bwStripsLang blocks) m noSigma f = .ok true) (by
    intro f hf
    obtain ⟨xy, hxy, rfl⟩ := List.mem_map.1 hf
    unfold bwGoalF
    split
    · rw [evFormula_atom]; exact ⟨_, rfl, by simp⟩
    · rw [evFormula_atom]; exact ⟨_, rfl, by simp⟩)
  refine ⟨b, h1, ?_⟩
  rw [h2]
  constructor
  · intro h x y hxy
    have h3 := h _ (List.mem_map_of_mem hxy)
    have hxb := hs _ hxy
    unfold bwGoalF at h3
    simp only at h3 hxb
    unfold placeOf
    split at h3
    · rename_i ht
      rw [evFormula_atom, Except.ok.injEq, hd.ontable] at h3
      obtain ⟨x', _, h4, h5⟩ := h3
      simp only [List.cons.injEq, bwObj_inj, and_true] at h4
      subst h4
      simp [ht, h5]
    · rename_i ht
      rw [evFormula_atom, Except.ok.injEq, hd.on] at h3
      obtain ⟨x', _, y', _, h4, h5⟩ := h3
      simp only [List.cons.injEq, bwObj_inj, and_true] at h4
      obtain ⟨rfl, rfl⟩ := h4
      simp [ht, h5]
  · intro h f hf
    obtain ⟨⟨x, y⟩, hxy, rfl⟩ := List.mem_map.1 hf
    have h3 := h x y hxy
    have hxb := hs _ hxy
    unfold bwGoalF
    simp only at h3 hxb ⊢
    unfold placeOf at h3
    split
    · rename_i ht
      rw [evFormula_atom, Except.ok.injEq, hd.ontable]
      simp only [ht, if_true] at h3
      exact ⟨x, hxb.1, rfl, h3⟩
    · rename_i ht
      rw [evFormula_atom, Except.ok.injEq, hd.on]
      simp only [ht, if_false] at h3
      exact ⟨x, hxb.1, y, hxb.2.resolve_left ht, rfl, h3⟩

/-! Plans. -/

/-- A sequence of moves. -/
inductive BPath (blocks : List String) : (String → BPlace) → List (String × List String) → (String → BPlace) → Prop
  | nil (pos) : BPath blocks pos [] pos
  | cons {pos name xs pos' acts pos''} : BMove blocks pos name xs pos' → BPath blocks pos' acts pos'' →
      BPath blocks pos ((name, xs) :: acts) pos''

theorem BPath.append {blocks p as q bs r} (h1 : BPath blocks p as q) (h2 : BPath blocks q bs r) :
    BPath blocks p (as ++ bs) r := by
  induction h1 with
  | nil => exact h2
  | cons h _ ih => exact .cons h (ih h2)

theorem bwOp_exists {P : BenchProblem} {blocks : List String} {u : Bool} (hP : P.actions = bwActions u) {pos name xs pos'}
    (h : BMove blocks pos name xs pos') : ∃ o, BWOp P blocks name xs o := by
  unfold BWOp
  rw [hP]
  cases h with
  | pickUp x hx => exact ⟨_, by simpa using hx, bwPickUp, by simp [bwActions], rfl, ground_pickUp x⟩
  | putDown x hx => exact ⟨_, by simpa using hx, bwPutDown, by simp [bwActions], rfl, ground_putDown x⟩
  | unstack x y hx hy => exact ⟨_, by simp [hx, hy], bwUnstack, by simp [bwActions], rfl, ground_unstack x y⟩
  | stack x y hx hy => exact ⟨_, by simp [hx, hy], bwStack u, by simp [bwActions], rfl, ground_stack u x y⟩

theorem path_exec {P : BenchProblem} {blocks : List String} {u : Bool} (hP : P.actions = bwActions u)
    (hL : P.lang = bwStripsLang blocks) (dom : Domains) {pos acts pos'} (h : BPath blocks pos acts pos') :
    ∀ {m}, ValidPos blocks pos → DescribesPos blocks P.lang m pos →
    ∃ ops m', List.Forall₂ (fun a o => BWOp P blocks a.1 a.2 o) acts ops ∧
      execPlan P.lang dom m ops = .ok (some m') ∧ ValidPos blocks pos' ∧ DescribesPos blocks P.lang m' pos' := by
  induction h with
  | nil pos => intro m hv hd; exact ⟨[], m, .nil, rfl, hv, hd⟩
  | cons hm _ ih =>
    intro m hv hd
    obtain ⟨o, ho⟩ := bwOp_exists hP hm
    obtain ⟨b, h1, h2, h3⟩ := bw_step hP hL dom hv hd ho
    obtain ⟨m1, h4, h5, h6⟩ := h3 _ hm
    obtain ⟨ops, m2, h7, h8, h9⟩ := ih h5 h6
    have hb : b = true := h2.2 ⟨_, hm⟩
    subst hb
    exact ⟨o :: ops, m2, .cons ho h7, by simp only [execPlan, h1, h4]; exact h8, h9⟩

theorem movePos_movePos (pos : String → BPlace) (x p q) : movePos (movePos pos x p) x q = movePos pos x q := by
  funext z; unfold movePos; split <;> rfl

theorem movePos_self {pos : String → BPlace} {x p} (h : pos x = p) : movePos pos x p = pos := by
  funext z; unfold movePos; split
  · rename_i hz; rw [hz, h]
  · rfl

theorem posOf_snoc {pat b t} (h : b ∉ pat.map (·.1)) : posOf (pat ++ [(b, t)]) = movePos (posOf pat) b (placeOf t) := by
  funext z
  unfold posOf movePos
  rw [List.find?_append]
  by_cases hz : z = b
  · subst hz
    have : pat.find? (fun p => p.1 == z) = none := by
      rw [List.find?_eq_none]
      intro p hp hx
      exact h (List.mem_map.2 ⟨p, hp, by simpa using hx⟩)
    simp [this]
  · cases hf : pat.find? (fun p => p.1 == z) with
    | none => simp [Ne.symm hz, hz, hf]
    | some p => simp [hz, hf]

/-- From all blocks on the table a configuration is built with two moves per block, and the other way round. -/
theorem build_paths {pat blocks} (hB : Build pat) (hb : ∀ x ∈ pat.map (·.1), x ∈ blocks) :
    (∃ acts, acts.length ≤ 2 * pat.length ∧ BPath blocks (fun _ => .table) acts (posOf pat)) ∧
    (∃ acts, acts.length ≤ 2 * pat.length ∧ BPath blocks (posOf pat) acts (fun _ => .table)) := by
  induction hB with
  | nil => exact ⟨⟨[], by simp, .nil _⟩, ⟨[], by simp, .nil _⟩⟩
  | snoc pat b t hB hb1 hbn ht ih =>
    obtain ⟨⟨as, h1, h2⟩, cs, h3, h4⟩ := ih (fun x hx => hb x (by simp only [List.map_append, List.mem_append]; exact .inl hx))
    have hbb : b ∈ blocks := hb b (by simp)
    rw [posOf_snoc hbn]
    have hpos : posOf pat b = .table := posOf_not_mem hbn
    by_cases h0 : t = "table"
    · have : movePos (posOf pat) b (placeOf t) = posOf pat := movePos_self (by rw [hpos, h0]; rfl)
      rw [this]
      exact ⟨⟨as, by simp; omega, h2⟩, cs, by simp; omega, h4⟩
    · have htp : placeOf t = .on t := by simp [placeOf, h0]
      have ht' := ht.resolve_left h0
      have htb : t ∈ blocks := hb t (by simp only [List.map_append, List.mem_append]; exact .inl ht'.1)
      have hbt : b ≠ t := by rintro rfl; exact hbn ht'.1
      have hnb : NothingOn blocks (posOf pat) b := by
        intro z _ hz
        rw [posOf_on hB] at hz
        rcases build_support hB z b hz.1 with h | h
        · exact hb1 h
        · exact hbn h
      have hnt : NothingOn blocks (posOf pat) t := by
        intro z _ hz
        rw [posOf_on hB] at hz
        exact ht'.2 (List.mem_map_of_mem (f := (·.2)) hz.1)
      have he : HandEmpty blocks (posOf pat) := fun z _ => posOf_ne_hand hB
      rw [htp]
      constructor
      · refine ⟨as ++ [("pick-up", [b]), ("stack", [b, t])], by simp; omega, h2.append
          (.cons (.pickUp b hbb hpos hnb he) (.cons ?_ (.nil _)))⟩
        have := BMove.stack (blocks := blocks) (pos := movePos (posOf pat) b .hand) b t hbb htb (by simp [movePos]) hbt (by
          intro z hz h
          unfold movePos at h
          split at h
          · cases h
          · exact hnt z hz h)
        rwa [movePos_movePos] at this
      · refine ⟨("unstack", [b, t]) :: ("put-down", [b]) :: cs, by simp; omega, .cons
          (.unstack b t hbb htb (by simp [movePos]) ?_ ?_) (.cons (.putDown b hbb (by simp [movePos])) ?_)⟩
        · intro z hz h
          unfold movePos at h
          split at h
          · simp only [BPlace.on.injEq] at h; exact hbt h.symm
          · exact hnb z hz h
        · intro z hz h
          unfold movePos at h
          split at h
          · cases h
          · exact he z hz h
        · rw [movePos_movePos, movePos_movePos, movePos_self hpos]
          exact h4

theorem blockNames_ok (n : Nat) : (blockNames n).Nodup ∧ "table" ∉ blockNames n ∧ (blockNames n).length = n := by
  refine ⟨?_, ?_, by simp [blockNames]⟩
  · unfold blockNames
    refine List.Nodup.map ?_ List.nodup_range
    intro a b h
    dsimp only at h
    have h' : ("b" ++ toString (a + 1)).toList = ("b" ++ toString (b + 1)).toList := by rw [h]
    simp only [String.toList_append] at h'
    have := natText_inj (String.toList_injective (List.append_cancel_left h'))
    omega
  · unfold blockNames
    intro h
    obtain ⟨k, -, hk⟩ := List.mem_map.1 h
    have h' : ("b" ++ toString (k + 1)).toList = "table".toList := by rw [hk]
    rw [String.toList_append] at h'
    have e : "b".toList = ['b'] := by decide
    have e2 : "table".toList = ['t', 'a', 'b', 'l', 'e'] := by decide
    rw [e, e2] at h'
    simp at h'

/-- The result of the generator. -/
theorem bw_generated (n : Nat) (u : Bool) (sh1 : List String → List String) (pick1 : Nat → Nat)
    (sh2 : List String → List String) (pick2 : Nat → Nat) (h1 : ∀ l, (sh1 l).Perm l) (h2 : ∀ l, (sh2 l).Perm l) :
    ∃ P, bwStripsProblem n u sh1 pick1 sh2 pick2 = .ok P ∧ P.actions = bwActions u ∧
      P.lang = bwStripsLang (blockNames n) ∧
      DescribesPos (blockNames n) P.lang P.init (posOf (bwPattern (blockNames n) sh1 pick1).2) ∧
      (∀ m pos, DescribesPos (blockNames n) P.lang m pos → ∃ b, evFormula P.lang m noSigma P.goal = .ok b ∧
        (b = true ↔ ∀ x y, (x, y) ∈ (bwPattern (blockNames n) sh2 pick2).2 → pos x = placeOf y)) := by
  obtain ⟨hn, ht, -⟩ := blockNames_ok n
  have hf : (blockNames n).filter (fun x => decide (x ≠ "table")) = blockNames n := by
    rw [List.filter_eq_self]; intro x hx; simp only [ne_eq, decide_not, Bool.not_eq_eq_eq_not, Bool.not_true, decide_eq_false_iff_not]; rintro rfl; exact ht hx
  obtain ⟨a1, a2, a3⟩ := pattern_build (blockNames n) hn sh1 h1 pick1
  obtain ⟨b1, b2, b3⟩ := pattern_build (blockNames n) hn sh2 h2 pick2
  rw [hf] at a3 b3
  obtain ⟨m, hm, hd⟩ := init_describes a1 a2 a3
  obtain ⟨g, hg, hge⟩ := goal_eval (blocks := blockNames n) (pat := (bwPattern (blockNames n) sh2 pick2).2) (by
    rintro ⟨x, y⟩ h
    exact ⟨b3.mem_iff.1 (List.mem_map_of_mem (f := (·.1)) h), (build_support b1 x y h).imp id (fun h => b3.mem_iff.1 h)⟩)
  refine ⟨⟨bwStripsLang (blockNames n), m, g, bwActions u⟩, ?_, rfl, rfl, hd, hge⟩
  unfold bwStripsProblem
  dsimp only
  rw [hm, hg]
  rfl

/-- C77: the generator returns a problem for every number of blocks and every sequence of random draws; the initial
state describes the configuration drawn first, with the hand empty. -/
theorem C77_init (n : Nat) (u : Bool) (sh1 : List String → List String) (pick1 : Nat → Nat)
    (sh2 : List String → List String) (pick2 : Nat → Nat) (h1 : ∀ l, (sh1 l).Perm l) (h2 : ∀ l, (sh2 l).Perm l) :
    ∃ P, bwStripsProblem n u sh1 pick1 sh2 pick2 = .ok P ∧ ∃ pos, ValidPos (blockNames n) pos ∧
      DescribesPos (blockNames n) P.lang P.init pos ∧ HandEmpty (blockNames n) pos ∧
      ∀ x y, (x, y) ∈ (bwPattern (blockNames n) sh1 pick1).2 → pos x = placeOf y := by
  obtain ⟨P, hP, -, -, hd, -⟩ := bw_generated n u sh1 pick1 sh2 pick2 h1 h2
  obtain ⟨a1, -, a3⟩ := pattern_build (blockNames n) (blockNames_ok n).1 sh1 h1 pick1
  exact ⟨P, hP, _, posOf_valid a1 (fun x hx => (List.mem_filter.1 (a3.mem_iff.1 hx)).1), hd, fun z _ => posOf_ne_hand a1,
    fun x y h => posOf_mem a1 h⟩

/-- C77: in a state that describes the blocks, a ground action is applicable exactly if the corresponding move of the
blocks world is possible, and its successor describes the blocks after the move. -/
theorem C77_step (n : Nat) (u : Bool) (sh1 : List String → List String) (pick1 : Nat → Nat)
    (sh2 : List String → List String) (pick2 : Nat → Nat) (h1 : ∀ l, (sh1 l).Perm l) (h2 : ∀ l, (sh2 l).Perm l)
    (P : BenchProblem) (hP : bwStripsProblem n u sh1 pick1 sh2 pick2 = .ok P) (dom : Domains) (m : MState)
    (pos : String → BPlace) (hv : ValidPos (blockNames n) pos) (hd : DescribesPos (blockNames n) P.lang m pos)
    (name : String) (xs : List String) (o : Operator) (ho : BWOp P (blockNames n) name xs o) :
    (∃ b, isApplicable P.lang m o = .ok b ∧ (b = true ↔ ∃ pos', BMove (blockNames n) pos name xs pos')) ∧
    ∀ pos', BMove (blockNames n) pos name xs pos' → ∃ m', progress P.lang dom m o.effs = .ok m' ∧
      ValidPos (blockNames n) pos' ∧ DescribesPos (blockNames n) P.lang m' pos' := by
  obtain ⟨P', hP', ha, hL, -⟩ := bw_generated n u sh1 pick1 sh2 pick2 h1 h2
  rw [hP] at hP'
  cases hP'
  obtain ⟨b, k1, k2, k3⟩ := bw_step ha hL dom hv hd ho
  exact ⟨⟨b, k1, k2⟩, k3⟩

/-- C77: every state reached by any sequence of ground actions describes a valid arrangement of the blocks, and no
exception is ever raised on the way. -/
theorem C77_reachable (n : Nat) (u : Bool) (sh1 : List String → List String) (pick1 : Nat → Nat)
    (sh2 : List String → List String) (pick2 : Nat → Nat) (h1 : ∀ l, (sh1 l).Perm l) (h2 : ∀ l, (sh2 l).Perm l)
    (P : BenchProblem) (hP : bwStripsProblem n u sh1 pick1 sh2 pick2 = .ok P) (dom : Domains) (plan : List Operator)
    (hplan : ∀ o ∈ plan, ∃ name xs, BWOp P (blockNames n) name xs o) :
    execPlan P.lang dom P.init plan = .ok none ∨ ∃ m pos, execPlan P.lang dom P.init plan = .ok (some m) ∧
      ValidPos (blockNames n) pos ∧ DescribesPos (blockNames n) P.lang m pos := by
  obtain ⟨P', hP', ha, hL, hd, -⟩ := bw_generated n u sh1 pick1 sh2 pick2 h1 h2
  rw [hP] at hP'
  cases hP'
  obtain ⟨a1, -, a3⟩ := pattern_build (blockNames n) (blockNames_ok n).1 sh1 h1 pick1
  have hv : ValidPos (blockNames n) (posOf (bwPattern (blockNames n) sh1 pick1).2) :=
    posOf_valid a1 (fun x hx => (List.mem_filter.1 (a3.mem_iff.1 hx)).1)
  generalize posOf (bwPattern (blockNames n) sh1 pick1).2 = pos at hd hv
  generalize P.init = m at hd
  induction plan generalizing m pos with
  | nil => exact .inr ⟨m, pos, rfl, hv, hd⟩
  | cons o plan ih =>
    obtain ⟨name, xs, ho⟩ := hplan o (.head _)
    obtain ⟨b, k1, k2, k3⟩ := bw_step ha hL dom hv hd ho
    simp only [execPlan, k1]
    cases b with
    | false => exact .inl rfl
    | true =>
      obtain ⟨pos', hm⟩ := k2.1 rfl
      obtain ⟨m', k4, k5, k6⟩ := k3 pos' hm
      simp only [k4]
      exact ih (fun o ho => hplan o (.tail _ ho)) pos' k5 m' k6

/-- C77: the goal is evaluated without exceptions in every state that describes the blocks, and holds exactly if every
block is where the configuration drawn for the goal puts it. -/
theorem C77_goal (n : Nat) (u : Bool) (sh1 : List String → List String) (pick1 : Nat → Nat)
    (sh2 : List String → List String) (pick2 : Nat → Nat) (h1 : ∀ l, (sh1 l).Perm l) (h2 : ∀ l, (sh2 l).Perm l)
    (P : BenchProblem) (hP : bwStripsProblem n u sh1 pick1 sh2 pick2 = .ok P) (m : MState) (pos : String → BPlace)
    (hd : DescribesPos (blockNames n) P.lang m pos) :
    ∃ b, evFormula P.lang m noSigma P.goal = .ok b ∧
      (b = true ↔ ∀ x y, (x, y) ∈ (bwPattern (blockNames n) sh2 pick2).2 → pos x = placeOf y) := by
  obtain ⟨P', hP', -, -, -, hg⟩ := bw_generated n u sh1 pick1 sh2 pick2 h1 h2
  rw [hP] at hP'
  cases hP'
  exact hg m pos hd

/-- C77: every generated problem has a plan, with at most four actions per block. -/
theorem C77_solvable (n : Nat) (u : Bool) (sh1 : List String → List String) (pick1 : Nat → Nat)
    (sh2 : List String → List String) (pick2 : Nat → Nat) (h1 : ∀ l, (sh1 l).Perm l) (h2 : ∀ l, (sh2 l).Perm l)
    (P : BenchProblem) (hP : bwStripsProblem n u sh1 pick1 sh2 pick2 = .ok P) (dom : Domains) :
    ∃ plan m, (∀ o ∈ plan, ∃ name xs, BWOp P (blockNames n) name xs o) ∧ plan.length ≤ 4 * n ∧
      execPlan P.lang dom P.init plan = .ok (some m) ∧ evFormula P.lang m noSigma P.goal = .ok true := by
  obtain ⟨P', hP', ha, hL, hd, hg⟩ := bw_generated n u sh1 pick1 sh2 pick2 h1 h2
  rw [hP] at hP'
  cases hP'
  obtain ⟨a1, -, a3⟩ := pattern_build (blockNames n) (blockNames_ok n).1 sh1 h1 pick1
  obtain ⟨b1, -, b3⟩ := pattern_build (blockNames n) (blockNames_ok n).1 sh2 h2 pick2
  have hlen : ∀ {pat : List (String × String)}, (pat.map (·.1)).Perm ((blockNames n).filter (fun x => decide (x ≠ "table"))) →
      pat.length ≤ n := by
    intro pat h
    have h3 := h.length_eq
    rw [List.length_map] at h3
    have := List.length_filter_le (fun x => decide (x ≠ "table")) (blockNames n)
    rw [(blockNames_ok n).2.2] at this
    omega
  have l1 := hlen a3
  have l2 := hlen b3
  obtain ⟨-, as, k1, k2⟩ := build_paths a1 (blocks := blockNames n) (fun x hx => (List.mem_filter.1 (a3.mem_iff.1 hx)).1)
  obtain ⟨⟨bs, k3, k4⟩, -⟩ := build_paths b1 (blocks := blockNames n) (fun x hx => (List.mem_filter.1 (b3.mem_iff.1 hx)).1)
  have hv : ValidPos (blockNames n) (posOf (bwPattern (blockNames n) sh1 pick1).2) :=
    posOf_valid a1 (fun x hx => (List.mem_filter.1 (a3.mem_iff.1 hx)).1)
  obtain ⟨ops, m, k5, k6, k7, k8⟩ := path_exec ha hL dom (k2.append k4) hv hd
  refine ⟨ops, m, ?_, ?_, k6, ?_⟩
  · intro o ho
    obtain ⟨i, hi, hio⟩ := List.mem_iff_getElem.1 ho
    have hl := k5.length_eq
    have := (List.forall₂_iff_get.1 k5).2 i (by omega) hi
    simp only [List.get_eq_getElem, hio] at this
    exact ⟨_, _, this⟩
  · have := k5.length_eq
    rw [List.length_append] at this
    omega
  · obtain ⟨b, k9, k10⟩ := hg m _ k8
    rw [k9, k10.2 (fun x y h => posOf_mem b1 h)]

/-! ### Non-vacuity -/

/-- Two blocks, `b2` on `b1` at first and the other way round in the goal. -/
def exBW : Except Err BenchProblem := bwStripsProblem 2 true id (fun k => k) List.reverse (fun k => k)

/-- What the theorems say can be observed on this problem: a plan, and an action that is not applicable at first. -/
example : ∃ P, exBW = .ok P ∧ ∃ o1 o2 o3 o4 m, BWOp P (blockNames 2) "unstack" ["b2", "b1"] o1 ∧
    BWOp P (blockNames 2) "put-down" ["b2"] o2 ∧ BWOp P (blockNames 2) "pick-up" ["b1"] o3 ∧
    BWOp P (blockNames 2) "stack" ["b1", "b2"] o4 ∧
    execPlan P.lang (fun _ => .ok []) P.init [o1, o2, o3, o4] = .ok (some m) ∧
    evFormula P.lang m noSigma P.goal = .ok true ∧ isApplicable P.lang P.init o3 = .ok false := by
  refine ⟨_, rfl, _, _, _, _, _, ⟨by decide, bwUnstack, by simp, rfl, ground_unstack "b2" "b1"⟩,
    ⟨by decide, bwPutDown, by simp, rfl, ground_putDown "b2"⟩, ⟨by decide, bwPickUp, by simp, rfl, ground_pickUp "b1"⟩,
    ⟨by decide, bwStack true, by simp, rfl, ground_stack true "b1" "b2"⟩, rfl, rfl, rfl⟩

end Tarski

import Verif.Props.BenchStrips
import Verif.PddlEffSpec
/-! C78: the functional blocksworld problems of `generate_fstrips_blocksworld_problem`. -/
namespace Tarski

/-! ### Specification -/

/-- The constant that stands for a place: the table or a block. -/
def bwPlace (x : String) : Const := ⟨.str x, if x = "table" then "place" else "block"⟩

/-- The locations as a list of pairs. -/
def locPairs (blocks : List String) (loc : String → String) : List (String × String) := blocks.map (fun x => (x, loc x))

/-- The model says where the blocks are, and which places are clear: the table, and the blocks on which nothing stands. -/
structure DescribesLoc (blocks : List String) (L : MLang) (m : MState) (loc : String → String) : Prop where
  value : ∀ x ∈ blocks, m.value L "loc" [bwPlace x] = .ok (bwPlace (loc x))
  clear : ∀ pt, m.holds L "clear" pt = true ↔
    ∃ x, pt = [bwPlace x] ∧ (x = "table" ∨ (x ∈ blocks ∧ ∀ z ∈ blocks, loc z ≠ x))

/-- The same for an interpretation whose objects are the places themselves. -/
structure DescribesLocI (blocks : List String) (I : Interp String) (loc : String → String) : Prop where
  names : ∀ x s, I.const (.str x) s = x
  differ : ∀ x y, I.pred (.cmp .ne) [x, y] ↔ x ≠ y
  value : ∀ x ∈ blocks, I.fn "loc" [x] = loc x
  clear : ∀ x, I.pred (.user "clear") [x] ↔ x = "table" ∨ (x ∈ blocks ∧ ∀ z ∈ blocks, loc z ≠ x)

/-- The successor of a state under a list of effects, all of them read in the state itself: the standard semantics of
functional STRIPS. -/
structure SuccessorI {D : Type} (I : Interp D) (es : List Effect) (σ : Asg D) (J : Interp D) : Prop where
  const : J.const = I.const
  cmp : ∀ c, J.pred (.cmp c) = I.pred (.cmp c)
  pred : ∀ p ds, J.pred (.user p) ds ↔
    DemandsAny I es σ (.add (.user p) ds) ∨ (I.pred (.user p) ds ∧ ¬ DemandsAny I es σ (.del (.user p) ds))
  set : ∀ f ds d, DemandsAny I es σ (.set f ds d) → J.fn f ds = d
  keep : ∀ f ds, (∀ d, ¬ DemandsAny I es σ (.set f ds d)) → J.fn f ds = I.fn f ds

/-- One location changes. -/
def moveLoc (loc : String → String) (x y : String) : String → String := fun z => if z = x then y else loc z

/-- In the world of blocks, `x` can be moved to the place `y`: it is elsewhere, nothing is on it, and `y` is the table or
another block on which nothing stands. -/
structure LocMove (blocks : List String) (loc : String → String) (x y : String) : Prop where
  block : x ∈ blocks
  place : y = "table" ∨ y ∈ blocks
  differ : x ≠ y
  elsewhere : loc x ≠ y
  free : ∀ z ∈ blocks, loc z ≠ x
  room : y = "table" ∨ ∀ z ∈ blocks, loc z ≠ y

/-- The ground operator `move(x, y)`. -/
def MoveOp (blocks : List String) (x y : String) (o : Operator) : Prop :=
  x ∈ blocks ∧ (y = "table" ∨ y ∈ blocks) ∧
    groundSchema bwMove (createSubst [.var bwFX, .var bwFY] [(bwPlace x).toTerm, (bwPlace y).toTerm]) = .ok o

/-- The configuration given by the user is one, resp. the shuffle permutes. -/
def BWSource.Valid (blocks : List String) : BWSource → Prop
  | .given locs => BWConfig blocks locs
  | .random sh _ => ∀ l, (sh l).Perm l

/-- `loc` is the configuration given by the user, if one was given. -/
def BWSource.Gives (loc : String → String) : BWSource → Prop
  | .given locs => ∀ x y, (x, y) ∈ locs → loc x = y
  | .random _ _ => True

/-! ### Proofs -/

theorem bwPlace_inj {x y : String} : bwPlace x = bwPlace y ↔ x = y :=
  ⟨fun h => by simp only [bwPlace, Const.mk.injEq, Name.str.injEq] at h; exact h.1, fun h => by rw [h]⟩

theorem bwPlace_term {x y : String} : (bwPlace x).toTerm = (bwPlace y).toTerm ↔ bwPlace x = bwPlace y :=
  ⟨fun h => by simpa using toTerm_inj (pt := [bwPlace x]) (qt := [bwPlace y]) (by simpa using h), fun h => by rw [h]⟩

theorem bwSet_spec (blocks : List String) (m : MState) {x y : String} (hx : x ≠ "table") :
    ∃ m', raising (m.set (bwFunLang blocks) "loc" false [.const (bwPlace x)] (.const (bwPlace y))) = .ok m' ∧
      m'.preds = m.preds ∧ ∀ pt, m'.value (bwFunLang blocks) "loc" pt =
        if pt = [bwPlace x] then .ok (bwPlace y) else m.value (bwFunLang blocks) "loc" pt := by
  have hc : checkAssignment (bwFunLang blocks) ["block", "place"] [.const (bwPlace x), .const (bwPlace y)] =
      .ok [bwPlace x, bwPlace y] := by
    have h1 : (bwFunLang blocks).isSub (bwPlace x).sort "block" = true := by simp [bwFunLang, bwPlace, hx]
    have h2 : (bwFunLang blocks).isSub (bwPlace y).sort "place" = true := by
      simp only [bwFunLang, bwPlace]; split <;> rfl
    simp [checkAssignment, checkElements, checkElement, h1, h2]
  refine ⟨⟨m.preds, dinsert m.fns ((bwFunLang blocks).fsig "loc")
      (dinsert ((dlookup m.fns ((bwFunLang blocks).fsig "loc")).getD []) [bwPlace x] (bwPlace y))⟩, ?_, ?_, ?_⟩
  · have hf : (bwFunLang blocks).fsorts "loc" = ["block", "place"] := rfl
    simp [MState.set, hf, hc, Arg.isConst, raising]
  · rfl
  · intro pt
    simp only [MState.value, dlookup_dinsert, if_true]
    by_cases hp : pt = [bwPlace x]
    · simp [hp]
    · simp only [hp, if_false]
      have hp' : ¬ [bwPlace x] = pt := fun h => hp h.symm
      cases dlookup m.fns ((bwFunLang blocks).fsig "loc") <;> simp [dlookup, hp']


theorem getConst_place {blocks : List String} {x : String} (hx : x = "table" ∨ x ∈ blocks) :
    getConst (bwFunConsts blocks) x = .ok (bwPlace x) := by
  unfold getConst bwFunConsts
  by_cases h : "table" = x
  · subst h; simp [bwPlace]
  · have hx' : x ∈ blocks := hx.resolve_left (fun e => h e.symm)
    have hb : ("table" == x) = false := by simpa using h
    rw [List.find?_cons_of_neg (by simpa using h)]
    clear hx
    induction blocks with
    | nil => cases hx'
    | cons b bs ih =>
      by_cases hbx : b = x
      · subst hbx
        have : b ≠ "table" := fun e => h e.symm
        simp [bwPlace, this]
      · have hx2 : x ∈ bs := by cases hx' with
          | head => exact absurd rfl hbx
          | tail _ h => exact h
        simpa [hbx] using ih hx2

theorem setLocs_spec {blocks : List String} (hnt : "table" ∉ blocks) : ∀ (locs : List (String × String)) (m : MState),
    (∀ xy ∈ locs, xy.1 ∈ blocks ∧ (xy.2 = "table" ∨ xy.2 ∈ blocks)) → (locs.map (·.1)).Nodup →
    ∃ m', seqApply (bwSetLoc blocks) m locs = .ok m' ∧ m'.preds = m.preds ∧
      (∀ x y, (x, y) ∈ locs → m'.value (bwFunLang blocks) "loc" [bwPlace x] = .ok (bwPlace y)) ∧
      ∀ pt, (∀ x ∈ locs.map (·.1), pt ≠ [bwPlace x]) →
        m'.value (bwFunLang blocks) "loc" pt = m.value (bwFunLang blocks) "loc" pt
  | [], m, _, _ => ⟨m, rfl, rfl, by simp, fun _ _ => rfl⟩
  | xy :: locs, m, h, hn => by
    obtain ⟨h1, h2⟩ := h xy (.head _)
    have hx : xy.1 ≠ "table" := fun e => hnt (e ▸ h1)
    obtain ⟨m1, k1, k2, k3⟩ := bwSet_spec blocks m (x := xy.1) (y := xy.2) hx
    simp only [List.map_cons, List.nodup_cons] at hn
    obtain ⟨m', j1, j2, j3, j4⟩ := setLocs_spec hnt locs m1 (fun p hp => h p (.tail _ hp)) hn.2
    have hs : bwSetLoc blocks m xy = .ok m1 := by
      unfold bwSetLoc
      rw [getConst_place (.inr h1), getConst_place h2]
      have : (bwFunLang blocks).isSub (bwPlace xy.1).sort "block" = true := by simp [bwFunLang, bwPlace, hx]
      simp only [this, k1]
      simp
    refine ⟨m', by rw [seqApply, hs]; exact j1, j2.trans k2, ?_, ?_⟩
    · intro x y hm
      cases hm with
      | head => rw [j4 _ (by intro z hz e; simp only [List.cons.injEq, bwPlace_inj, and_true] at e; subst e; exact hn.1 hz), k3]; simp
      | tail _ hm => exact j3 x y hm
    · intro pt hp
      rw [j4 pt (fun x hx => hp x (.tail _ hx)), k3, if_neg (hp _ (.head _))]

theorem isSub_place (blocks : List String) (x : String) : (bwFunLang blocks).isSub (bwPlace x).sort "place" = true := by
  simp only [bwFunLang, bwPlace]; split <;> rfl

theorem setClears_spec {blocks : List String} : ∀ (cl : List String) (m : MState),
    (∀ x ∈ cl, x = "table" ∨ x ∈ blocks) →
    ∃ m', seqApply (bwSetClear blocks) m cl = .ok m' ∧ m'.fns = m.fns ∧
      ∀ pt, m'.holds (bwFunLang blocks) "clear" pt = true ↔
        (∃ x ∈ cl, pt = [bwPlace x]) ∨ m.holds (bwFunLang blocks) "clear" pt = true
  | [], m, _ => ⟨m, rfl, rfl, by simp⟩
  | x :: cl, m, h => by
    have hc : checkAssignment (bwFunLang blocks) ["place"] [.const (bwPlace x)] = .ok [bwPlace x] := by
      simp [checkAssignment, checkElements, checkElement, isSub_place]
    have hp : (bwFunLang blocks).psorts "clear" = ["place"] := rfl
    obtain ⟨m1, e1, e2, e3⟩ : ∃ m1, bwSetClear blocks m x = .ok m1 ∧ m1.fns = m.fns ∧
        ∀ pt, m1.holds (bwFunLang blocks) "clear" pt = true ↔ pt = [bwPlace x] ∨ m.holds (bwFunLang blocks) "clear" pt = true := by
      refine ⟨⟨dinsert m.preds ((bwFunLang blocks).psig "clear")
        (ptAdd ((dlookup m.preds ((bwFunLang blocks).psig "clear")).getD []) [bwPlace x]), m.fns⟩, ?_, rfl, ?_⟩
      · unfold bwSetClear
        rw [getConst_place (h x (.head _))]
        simp [MState.add, hp, hc, raising]
      · intro pt
        simp only [MState.holds, dlookup_dinsert, if_true]
        cases dlookup m.preds ((bwFunLang blocks).psig "clear") <;> simp [mem_ptAdd, or_comm]
    obtain ⟨m', j1, j2, j3⟩ := setClears_spec cl m1 (fun z hz => h z (.tail _ hz))
    refine ⟨m', by rw [seqApply, e1]; exact j1, j2.trans e2, ?_⟩
    intro pt
    rw [j3, e3]
    simp only [List.mem_cons, exists_eq_or_imp]
    rw [or_left_comm, or_assoc]


/-- The location of a block in a list of pairs. -/
def locOf (pat : List (String × String)) (x : String) : String :=
  match pat.find? (fun p => p.1 == x) with
  | some p => p.2
  | none => ""

theorem locOf_mem {pat : List (String × String)} {x y : String} (hn : (pat.map (·.1)).Nodup) (h : (x, y) ∈ pat) :
    locOf pat x = y := by
  unfold locOf
  induction pat with
  | nil => cases h
  | cons p pat ih =>
    simp only [List.map_cons, List.nodup_cons] at hn
    by_cases hp : p.1 = x
    · have : p = (x, y) := by
        cases h with
        | head => rfl
        | tail _ h => exact absurd (List.mem_map_of_mem (f := (·.1)) h) (by rw [← hp]; exact hn.1)
      subst this
      simp
    · have h' : (x, y) ∈ pat := by
        cases h with
        | head => exact absurd rfl hp
        | tail _ h => exact h
      have := ih hn.2 h'
      simpa [hp] using this

theorem mem_locPairs {blocks : List String} {loc : String → String} {x y : String} :
    (x, y) ∈ locPairs blocks loc ↔ x ∈ blocks ∧ loc x = y := by
  unfold locPairs
  rw [List.mem_map]
  constructor
  · rintro ⟨z, hz, e⟩; cases e; exact ⟨hz, rfl⟩
  · rintro ⟨h, rfl⟩; exact ⟨x, h, rfl⟩

theorem mem_locPairs_iff {blocks : List String} {pat : List (String × String)} {loc : String → String}
    (hp : (pat.map (·.1)).Perm blocks) (hl : ∀ x y, (x, y) ∈ pat → loc x = y) (x y : String) :
    (x, y) ∈ locPairs blocks loc ↔ (x, y) ∈ pat := by
  rw [mem_locPairs]
  constructor
  · rintro ⟨h, rfl⟩
    obtain ⟨⟨x', y'⟩, h1, h2⟩ := List.mem_map.1 (hp.mem_iff.2 h)
    simp only at h2
    subst h2
    rw [hl _ _ h1]; exact h1
  · intro h
    exact ⟨hp.mem_iff.1 (List.mem_map_of_mem (f := (·.1)) h), hl _ _ h⟩

theorem config_locPairs {blocks : List String} {pat : List (String × String)} {loc : String → String}
    (hc : BWConfig blocks pat) (hl : ∀ x y, (x, y) ∈ pat → loc x = y) : BWConfig blocks (locPairs blocks loc) := by
  have hm := mem_locPairs_iff hc.once hl
  refine ⟨?_, ?_, ?_, ?_⟩
  · simp [locPairs, Function.comp_def]
  · intro x y h; exact hc.support x y ((hm x y).1 h)
  · intro x x' y h h'; exact hc.single x x' y ((hm x y).1 h) ((hm x' y).1 h')
  · intro x h
    exact hc.acyclic x (Relation.TransGen.mono (fun a b hab => (hm a b).1 hab) _ _ h)

theorem blockNames_pat (n : Nat) : ("table" :: blockNames n).filter (fun x => decide (x ≠ "table")) = blockNames n := by
  rw [List.filter_cons_of_neg (by simp)]
  exact List.filter_eq_self.2 (by intro x hx; simpa using fun e : x = "table" => (blockNames_ok n).2.1 (e ▸ hx))

/-- What either source yields. -/
theorem source_pattern (n : Nat) (src : BWSource) (hv : src.Valid (blockNames n)) :
    ∃ cl pat, src.pattern (blockNames n) = .ok (cl, pat) ∧ BWConfig (blockNames n) pat ∧
      (∀ x, x ∈ cl ↔ x = "table" ∨ (x ∈ blockNames n ∧ ∀ z, (z, x) ∉ pat)) ∧ src.Gives (locOf pat) := by
  have hn := blockNames_ok n
  have hcons : ("table" :: blockNames n).Nodup := List.nodup_cons.2 ⟨hn.2.1, hn.1⟩
  cases src with
  | given locs =>
    have hv' : BWConfig (blockNames n) locs := hv
    refine ⟨bwClear ("table" :: blockNames n) locs, locs, ?_, hv', fun x => ?_, ?_⟩
    · have hlen : locs.length = (blockNames n).length := by simpa using hv'.once.length_eq
      simp [BWSource.pattern, hlen]
    · rw [C76_clear]; by_cases hx : x = "table" <;> simp [hx]
    · intro x y h
      exact locOf_mem (hv'.once.nodup_iff.2 hn.1) h
  | random sh pick =>
    obtain ⟨h1, h2⟩ := C76_pattern ("table" :: blockNames n) hcons sh hv pick
    rw [blockNames_pat] at h1
    refine ⟨(bwPattern ("table" :: blockNames n) sh pick).1, (bwPattern ("table" :: blockNames n) sh pick).2, rfl, h1,
      fun x => ?_, trivial⟩
    rw [h2]; by_cases hx : x = "table" <;> simp [hx]


theorem evFormula_locEq {blocks : List String} {m : MState} {loc : String → String}
    (hd : DescribesLoc blocks (bwFunLang blocks) m loc) {x y : String} (hx : x ∈ blocks) :
    evFormula (bwFunLang blocks) m noSigma (.atom (.cmp .eq) [.app "loc" [(bwPlace x).toTerm], (bwPlace y).toTerm]) =
      .ok (decide (loc x = y)) := by
  have h1 : evTerm (bwFunLang blocks) m noSigma .eval (.app "loc" [(bwPlace x).toTerm]) = .ok (bwPlace (loc x)) := by
    have ha : isArith "loc" = false := by decide
    rw [evTerm]
    simp only [ha, evTerms, Const.toTerm, evTerm, valueOrUndefined]
    have := hd.value x hx
    simp only [Bool.false_eq_true, if_false]
    rw [show (⟨(bwPlace x).name, (bwPlace x).sort⟩ : Const) = bwPlace x from rfl, this]
  rw [evFormula]
  simp only [evTerms, h1]
  simp [Const.toTerm, evTerm, cmpNames, bwPlace]

/-- C78: for sources that are configurations (or random draws) the generator returns; the initial state of the problem
describes a configuration of the blocks, the one given by the user if one was given; and the goal is true exactly in the
states that agree on all blocks with a configuration, again the one given by the user. -/
theorem C78_init (n : Nat) (init goal : BWSource) (hi : init.Valid (blockNames n)) (hg : goal.Valid (blockNames n)) :
    ∃ P, bwFunProblem n init goal = .ok P ∧ P.lang = bwFunLang (blockNames n) ∧
      (∃ loc, BWConfig (blockNames n) (locPairs (blockNames n) loc) ∧ init.Gives loc ∧
        DescribesLoc (blockNames n) P.lang P.init loc) ∧
      ∃ gloc, BWConfig (blockNames n) (locPairs (blockNames n) gloc) ∧ goal.Gives gloc ∧
        ∀ m loc, DescribesLoc (blockNames n) P.lang m loc →
          ∃ b, evFormula P.lang m noSigma P.goal = .ok b ∧ (b = true ↔ ∀ x ∈ blockNames n, loc x = gloc x) := by
  obtain ⟨cl, pat, h1, h2, h3, h4⟩ := source_pattern n init hi
  obtain ⟨gcl, gpat, g1, g2, g3, g4⟩ := source_pattern n goal hg
  have hn := blockNames_ok n
  have hpn : ∀ {pat}, BWConfig (blockNames n) pat → (pat.map (·.1)).Nodup := fun h => h.once.nodup_iff.2 hn.1
  have hin : ∀ {pat}, BWConfig (blockNames n) pat → ∀ xy ∈ pat, xy.1 ∈ blockNames n ∧ (xy.2 = "table" ∨ xy.2 ∈ blockNames n) := by
    intro pat hc xy h
    exact ⟨hc.once.mem_iff.1 (List.mem_map_of_mem (f := (·.1)) h), hc.support xy.1 xy.2 h⟩
  obtain ⟨m1, a1, a2, a3, -⟩ := setLocs_spec hn.2.1 pat MState.empty (hin h2) (hpn h2)
  obtain ⟨m2, b1, b2, b3⟩ := setClears_spec (blocks := blockNames n) cl m1 (by
    intro x hx; exact ((h3 x).1 hx).imp id (fun h => h.1))
  have hgoal : mapExcept (bwFunGoalAtom (blockNames n)) gpat = .ok (gpat.map (fun xy =>
      .atom (.cmp .eq) [.app "loc" [(bwPlace xy.1).toTerm], (bwPlace xy.2).toTerm])) := by
    apply mapExcept_ok
    intro xy hxy
    obtain ⟨k1, k2⟩ := hin g2 xy hxy
    have hx : xy.1 ≠ "table" := fun e => hn.2.1 (e ▸ k1)
    have : (bwFunLang (blockNames n)).isSub (bwPlace xy.1).sort "block" = true := by simp [bwFunLang, bwPlace, hx]
    unfold bwFunGoalAtom
    rw [getConst_place (.inr k1), getConst_place k2]
    simp only [this]
    rfl
  refine ⟨⟨bwFunLang (blockNames n), m2, land (gpat.map (fun xy =>
      .atom (.cmp .eq) [.app "loc" [(bwPlace xy.1).toTerm], (bwPlace xy.2).toTerm])) true, [("move", bwMove)]⟩, ?_, rfl,
      ⟨locOf pat, config_locPairs h2 (fun x y h => locOf_mem (hpn h2) h), h4, ?_⟩,
      ⟨locOf gpat, config_locPairs g2 (fun x y h => locOf_mem (hpn g2) h), g4, ?_⟩⟩
  · unfold bwFunProblem
    simp only [h1, a1, b1, g1, hgoal]
  · refine ⟨?_, ?_⟩
    · intro x hx
      obtain ⟨⟨x', y⟩, k1, k2⟩ := List.mem_map.1 (h2.once.mem_iff.2 hx)
      simp only at k2
      subst k2
      rw [locOf_mem (hpn h2) k1, ← a3 _ _ k1]
      simp only [MState.value, b2]
    · intro pt
      have he : m1.holds (bwFunLang (blockNames n)) "clear" pt = false := by
        simp [MState.holds, a2, MState.empty, dlookup]
      simp only
      rw [b3, he]
      simp only [Bool.false_eq_true, or_false]
      constructor
      · rintro ⟨x, hx, rfl⟩
        refine ⟨x, rfl, ((h3 x).1 hx).imp id (fun h => ⟨h.1, fun z hz e => h.2 z ?_⟩)⟩
        have := (mem_locPairs_iff h2.once (fun x y h => locOf_mem (hpn h2) h) z x).1 (mem_locPairs.2 ⟨hz, e⟩)
        exact this
      · rintro ⟨x, rfl, h⟩
        refine ⟨x, (h3 x).2 (h.imp id (fun h => ⟨h.1, fun z hz => ?_⟩)), rfl⟩
        exact h.2 z (h2.once.mem_iff.1 (List.mem_map_of_mem (f := (·.1)) hz)) (locOf_mem (hpn h2) hz)
  · intro m loc hd
    simp only at hd ⊢
    obtain ⟨b, k1, k2⟩ := land_flat_eval (bwFunLang (blockNames n)) m (gpat.map (fun xy =>
      .atom (.cmp .eq) [.app "loc" [(bwPlace xy.1).toTerm], (bwPlace xy.2).toTerm]))
      (fun f => ∀ x y, f = .atom (.cmp .eq) [.app "loc" [(bwPlace x).toTerm], (bwPlace y).toTerm] → loc x = y) (by
        intro f hf
        obtain ⟨⟨x, y⟩, hxy, rfl⟩ := List.mem_map.1 hf
        refine ⟨_, evFormula_locEq hd (hin g2 _ hxy).1, ?_⟩
        simp only [decide_eq_true_eq]
        constructor
        · intro h x' y' e
          simp only [Formula.atom.injEq, List.cons.injEq, Term.app.injEq, and_true, true_and, bwPlace_term, bwPlace_inj] at e
          rw [← e.1, ← e.2]; exact h
        · intro h; exact h x y rfl)
    refine ⟨b, k1, k2.trans ?_⟩
    constructor
    · intro h x hx
      obtain ⟨⟨x', y⟩, j1, j2⟩ := List.mem_map.1 (g2.once.mem_iff.2 hx)
      simp only at j2
      subst j2
      rw [locOf_mem (hpn g2) j1]
      exact h _ (List.mem_map_of_mem j1) _ _ rfl
    · intro h f hf x y e
      obtain ⟨⟨x', y'⟩, hxy, rfl⟩ := List.mem_map.1 hf
      simp only [Formula.atom.injEq, List.cons.injEq, Term.app.injEq, and_true, true_and, bwPlace_term, bwPlace_inj] at e
      rw [← e.1, ← e.2, h _ (hin g2 _ hxy).1]
      exact locOf_mem (hpn g2) hxy


theorem ground_move (x y : String) : groundSchema bwMove (createSubst [.var bwFX, .var bwFY] [(bwPlace x).toTerm, (bwPlace y).toTerm]) =
    .ok ⟨.comp .tuple .and [.atom (.cmp .ne) [(bwPlace x).toTerm, (bwPlace y).toTerm],
      .atom (.cmp .ne) [.app "loc" [(bwPlace x).toTerm], (bwPlace y).toTerm],
      .atom (.user "clear") [(bwPlace x).toTerm], .atom (.user "clear") [(bwPlace y).toTerm]],
     [.assign .top "loc" [(bwPlace x).toTerm] (bwPlace y).toTerm,
      .add .top (.user "clear") [.app "loc" [(bwPlace x).toTerm]],
      .del (.atom (.cmp .ne) [(bwPlace y).toTerm, .const (.str "table") "place"]) (.user "clear") [(bwPlace y).toTerm]]⟩ := rfl


/-- What `progress` makes of `move`: the source of the move is not cleared; instead the constant `None` is. -/
theorem move_progress (blocks : List String) (dom : Domains) (m : MState) {x y : String} {o : Operator}
    (hnt : "table" ∉ blocks) (ho : MoveOp blocks x y o) :
    ∃ m', progress (bwFunLang blocks) dom m o.effs = .ok m' ∧
      (∀ pt, m'.holds (bwFunLang blocks) "clear" pt = true ↔ pt = [⟨.pyNone, "place"⟩] ∨
        (m.holds (bwFunLang blocks) "clear" pt = true ∧ ¬ (y ≠ "table" ∧ pt = [bwPlace y]))) ∧
      ∀ pt, m'.value (bwFunLang blocks) "loc" pt =
        if pt = [bwPlace x] then .ok (bwPlace y) else m.value (bwFunLang blocks) "loc" pt := by
  obtain ⟨hx, hy, hg⟩ := ho
  rw [ground_move] at hg
  cases hg
  have hxt : x ≠ "table" := fun e => hnt (e ▸ hx)
  have hdel : ∃ m1, applyEffect (bwFunLang blocks) dom m (.del (.atom (.cmp .ne) [(bwPlace y).toTerm, .const (.str "table") "place"])
      (.user "clear") [(bwPlace y).toTerm]) = .ok m1 ∧ m1.fns = m.fns ∧
      ∀ pt, m1.holds (bwFunLang blocks) "clear" pt = true ↔
        (m.holds (bwFunLang blocks) "clear" pt = true ∧ ¬ (y ≠ "table" ∧ pt = [bwPlace y])) := by
    have hcond : evFormula (bwFunLang blocks) m noSigma (.atom (.cmp .ne) [(bwPlace y).toTerm, .const (.str "table") "place"]) =
        .ok (decide (y ≠ "table")) := by
      rw [evFormula]
      simp [evTerms, Const.toTerm, evTerm, cmpNames, bwPlace]
    unfold applyEffect applyFuel
    simp only [Effect.cond, hcond]
    by_cases ht : y = "table"
    · refine ⟨m, by simp [ht], rfl, by simp [ht]⟩
    · simp only [ht, ne_eq, not_false_eq_true, decide_true, MState.discardP, MState.discard, List.map_cons, List.map_nil]
      have hw : wrapTuple [termArg (bwPlace y).toTerm] = .ok (some [bwPlace y]) := rfl
      simp only [hw]
      cases hl : dlookup m.preds ((bwFunLang blocks).psig "clear") with
      | none => exact ⟨m, rfl, rfl, by simp [MState.holds, hl]⟩
      | some ext =>
        refine ⟨_, rfl, rfl, ?_⟩
        intro pt
        simp only [MState.holds, dlookup_dinsert, if_true, hl]
        simp [ptDiscard]
  obtain ⟨m1, a1, a2, a3⟩ := hdel
  obtain ⟨m2, b1, b2, b3⟩ := bwSet_spec blocks m1 (x := x) (y := y) hxt
  have hset : applyEffect (bwFunLang blocks) dom m1 (.assign .top "loc" [(bwPlace x).toTerm] (bwPlace y).toTerm) = .ok m2 := by
    unfold applyEffect applyFuel
    have hb : builtinFunctionNames.contains "loc" = false := by decide
    simp only [Effect.cond, evFormula, hb]
    exact b1
  have hc : checkAssignment (bwFunLang blocks) ["place"] [.term] = .ok [⟨.pyNone, "place"⟩] := by
    simp [checkAssignment, checkElements, checkElement, bwFunLang]
  have hp : (bwFunLang blocks).psorts "clear" = ["place"] := rfl
  refine ⟨⟨dinsert m2.preds ((bwFunLang blocks).psig "clear")
        (ptAdd ((dlookup m2.preds ((bwFunLang blocks).psig "clear")).getD []) [⟨.pyNone, "place"⟩]), m2.fns⟩, ?_, ?_, ?_⟩
  · unfold progress
    simp only [delsFirst, List.filter, Effect.isDel, List.nil_append, List.cons_append, Bool.not_false, Bool.not_true, seqApply, a1, hset]
    simp only [applyEffect, applyFuel, Effect.cond, evFormula]
    have ht : List.map termArg [Term.app "loc" [(bwPlace x).toTerm]] = [.term] := rfl
    simp [MState.add, hp, ht, hc, raising]
  · intro pt
    rw [← a3]
    have : m1.holds (bwFunLang blocks) "clear" pt = m2.holds (bwFunLang blocks) "clear" pt := by simp only [MState.holds, b2]
    rw [this]
    simp only [MState.holds, dlookup_dinsert, if_true]
    cases dlookup m2.preds ((bwFunLang blocks).psig "clear") <;> simp [mem_ptAdd, or_comm]
  · intro pt
    have e : MState.value (bwFunLang blocks) m1 "loc" pt = MState.value (bwFunLang blocks) m "loc" pt := by
      simp only [MState.value, a2]
    rw [← e]
    exact b3 pt

/-- Plans made of instances of `move`. -/
def MovePlan (blocks : List String) (os : List Operator) : Prop := ∀ o ∈ os, ∃ x y, MoveOp blocks x y o

/-- C78: in no execution of `move` actions with the `progress` of the library does a block become clear. -/
theorem C78_never_cleared (blocks : List String) (hnt : "table" ∉ blocks) (dom : Domains) : ∀ (os : List Operator) (m m' : MState),
    MovePlan blocks os → execPlan (bwFunLang blocks) dom m os = .ok (some m') →
    ∀ b, m'.holds (bwFunLang blocks) "clear" [bwPlace b] = true → m.holds (bwFunLang blocks) "clear" [bwPlace b] = true
  | [], m, m', _, h, b, hb => by simp only [execPlan, Except.ok.injEq, Option.some.injEq] at h; rw [h]; exact hb
  | o :: os, m, m', hp, h, b, hb => by
    obtain ⟨x, y, ho⟩ := hp o (.head _)
    obtain ⟨m1, h1, h2, -⟩ := move_progress blocks dom m hnt ho
    rw [execPlan] at h
    split at h
    · cases h
    · cases h
    · rw [h1] at h
      have := C78_never_cleared blocks hnt dom os m1 m' (fun o ho => hp o (.tail _ ho)) h b hb
      rw [h2] at this
      rcases this with h | h
      · simp [bwPlace] at h
      · exact h.1


/-- C78: in an execution with the `progress` of the library, a block that is not clear stays where it is. -/
theorem C78_covered_stays (blocks : List String) (hnt : "table" ∉ blocks) (dom : Domains) (b : String) :
    ∀ (os : List Operator) (m m' : MState), MovePlan blocks os → execPlan (bwFunLang blocks) dom m os = .ok (some m') →
    m.holds (bwFunLang blocks) "clear" [bwPlace b] = false →
    m'.value (bwFunLang blocks) "loc" [bwPlace b] = m.value (bwFunLang blocks) "loc" [bwPlace b]
  | [], m, m', _, h, _ => by simp only [execPlan, Except.ok.injEq, Option.some.injEq] at h; rw [h]
  | o :: os, m, m', hp, h, hb => by
    obtain ⟨x, y, ho⟩ := hp o (.head _)
    obtain ⟨m1, h1, h2, h3⟩ := move_progress blocks dom m hnt ho
    rw [execPlan] at h
    split at h
    · cases h
    · cases h
    · rename_i ha
      rw [h1] at h
      have hb1 : m1.holds (bwFunLang blocks) "clear" [bwPlace b] = false := by
        rw [Bool.eq_false_iff]
        intro hc
        rcases (h2 _).1 hc with h | h
        · simp [bwPlace] at h
        · rw [hb] at h; exact absurd h.1 (by simp)
      rw [C78_covered_stays blocks hnt dom b os m1 m' (fun o ho => hp o (.tail _ ho)) h hb1, h3, if_neg]
      intro e
      simp only [List.cons.injEq, and_true, bwPlace_inj] at e
      subst e
      -- the precondition of `move` requires the block to be clear
      obtain ⟨-, -, hg⟩ := ho
      rw [ground_move] at hg
      cases hg
      have hcl := evFormula_atom (bwFunLang blocks) m "clear" [bwPlace b]
      rw [hb] at hcl
      simp only [List.map_cons, List.map_nil] at hcl
      simp only [isApplicable] at ha
      rw [evFormula] at ha
      simp only [evAll, hcl] at ha
      split at ha
      · split at ha <;> cases ha
      · cases ha
      · cases ha

theorem bwFunProblem_lang {n init goal P} (h : bwFunProblem n init goal = .ok P) : P.lang = bwFunLang (blockNames n) := by
  unfold bwFunProblem at h
  dsimp only at h
  repeat' split at h
  all_goals first | cases h; done | (cases h; rfl)

/-- C78, a length that is not the number of blocks is rejected with ValueError. -/
theorem C78_length (n : Nat) (locs : List (String × String)) (goal : BWSource) (h : locs.length ≠ n) :
    bwFunProblem n (.given locs) goal = .error .value := by
  have := (blockNames_ok n).2.2
  unfold bwFunProblem
  simp [BWSource.pattern, this, h]

/-- C78 without the hypothesis on the configuration given by the user is false: two blocks on each other are accepted as
an initial state. -/
theorem C78_given_refuted : ¬ ∀ (n : Nat) (locs : List (String × String)) (goal : BWSource) (P : BenchProblem),
    bwFunProblem n (.given locs) goal = .ok P → BWConfig (blockNames n) locs := by
  intro h
  obtain ⟨P, hP⟩ : ∃ P, bwFunProblem 2 (.given [("b1", "b2"), ("b2", "b1")]) (.given [("b1", "table"), ("b2", "table")]) = .ok P :=
    ⟨_, rfl⟩
  have := (h _ _ _ P hP).acyclic "b1"
  exact this (.tail (.single (.head _)) (.tail _ (.head _)))

/-- The locations of two blocks, the first on the second. -/
def towerLoc : String → String := fun x => if x = "b1" then "b2" else "table"

/-- C78 for the actions of the problem as executed by the library is false: with two blocks, the first on the second, and
the goal that the second is on the first, two moves lead to the goal in the world of blocks, but no plan executed with the
library's `progress` does. -/
theorem C78_solvable_refuted : ∃ P, bwFunProblem 2 (.given [("b1", "b2"), ("b2", "table")]) (.given [("b1", "table"), ("b2", "b1")]) = .ok P ∧
    (LocMove ["b1", "b2"] towerLoc "b1" "table" ∧ LocMove ["b1", "b2"] (moveLoc towerLoc "b1" "table") "b2" "b1" ∧
      moveLoc (moveLoc towerLoc "b1" "table") "b2" "b1" "b1" = "table" ∧
      moveLoc (moveLoc towerLoc "b1" "table") "b2" "b1" "b2" = "b1") ∧
    ∀ (dom : Domains) (os : List Operator) (m : MState), MovePlan ["b1", "b2"] os →
      execPlan P.lang dom P.init os = .ok (some m) → evFormula P.lang m noSigma P.goal ≠ .ok true := by
  refine ⟨_, rfl, ⟨⟨by decide, by decide, by decide, by decide, by decide, by decide⟩,
    ⟨by decide, by decide, by decide, by decide, by decide, by decide⟩, by decide, by decide⟩, ?_⟩
  intro dom os m hp h hg
  have hb : blockNames 2 = ["b1", "b2"] := by decide
  have hv := C78_covered_stays ["b1", "b2"] (by decide) dom "b2" os _ m hp h (by decide)
  have hv' : m.value (bwFunLang ["b1", "b2"]) "loc" [bwPlace "b2"] = .ok (bwPlace "table") := hv.trans (by decide)
  have hgoal : evFormula (bwFunLang ["b1", "b2"]) m noSigma (.comp .tuple .and
    [.atom (.cmp .eq) [.app "loc" [(bwPlace "b1").toTerm], (bwPlace "table").toTerm],
     .atom (.cmp .eq) [.app "loc" [(bwPlace "b2").toTerm], (bwPlace "b1").toTerm]]) = .ok true := hg
  rw [evFormula] at hgoal
  have h2 : evFormula (bwFunLang ["b1", "b2"]) m noSigma
      (.atom (.cmp .eq) [.app "loc" [(bwPlace "b2").toTerm], (bwPlace "b1").toTerm]) = .ok false := by
    have ha : isArith "loc" = false := by decide
    rw [evFormula]
    simp only [evTerms, evTerm, ha, Const.toTerm, valueOrUndefined]
    rw [show (⟨(bwPlace "b2").name, (bwPlace "b2").sort⟩ : Const) = bwPlace "b2" from rfl, hv']
    simp [cmpNames, bwPlace]
  simp only [evAll, h2] at hgoal
  split at hgoal <;> cases hgoal


/-- Moving a block on which nothing stands keeps a configuration. -/
theorem config_move {blocks : List String} {loc : String → String} {x y : String} (hnt : "table" ∉ blocks)
    (hc : BWConfig blocks (locPairs blocks loc)) (hm : LocMove blocks loc x y) :
    BWConfig blocks (locPairs blocks (moveLoc loc x y)) := by
  have hs := hc.support
  have h1 := hc.single
  have e : ∀ a b, (a, b) ∈ locPairs blocks (moveLoc loc x y) ↔ a ∈ blocks ∧ (if a = x then y = b else loc a = b) := by
    intro a b; rw [mem_locPairs]; unfold moveLoc; split <;> rfl
  simp only [mem_locPairs] at hs h1
  refine ⟨by simp [locPairs, Function.comp_def], ?_, ?_, ?_⟩
  · intro a b h
    rw [e] at h
    split at h
    · rw [← h.2]; exact hm.place
    · exact hs a b h
  · intro a a' b h h'
    rw [e] at h h'
    have hr := hm.room
    have h1' : ∀ a ∈ blocks, ∀ a' ∈ blocks, loc a = loc a' → loc a = "table" ∨ a = a' := fun a ha a' ha' e =>
      h1 a a' (loc a) ⟨ha, rfl⟩ ⟨ha', e.symm⟩
    clear h1 hs hc e
    by_cases k : a = x <;> by_cases k' : a' = x <;> simp only [k, k', if_true, if_false] at h h' ⊢ <;> grind
  · have hn : ∀ a, (a, x) ∉ locPairs blocks (moveLoc loc x y) := by
      intro a h
      rw [e] at h
      split at h
      · exact hm.differ h.2.symm
      · exact hm.free a h.1 h.2
    have key : ∀ a b, Relation.TransGen (fun a b => (a, b) ∈ locPairs blocks (moveLoc loc x y)) a b → b ≠ x ∧
        (a = x ∨ Relation.TransGen (fun a b => (a, b) ∈ locPairs blocks loc) a b) := by
      intro a b hab
      induction hab with
      | single h =>
        rename_i b
        refine ⟨by rintro rfl; exact hn _ h, ?_⟩
        by_cases ha : a = x
        · exact .inl ha
        · rw [e, if_neg ha] at h
          exact .inr (.single (mem_locPairs.2 h))
      | tail _ h2 ih =>
        rename_i b c
        refine ⟨by rintro rfl; exact hn _ h2, ?_⟩
        rcases ih.2 with h | h
        · exact .inl h
        · rw [e, if_neg ih.1] at h2
          exact .inr (h.tail (mem_locPairs.2 h2))
    intro z hz
    obtain ⟨k1, k2 | k2⟩ := key z z hz
    · exact k1 k2
    · exact hc.acyclic z k2

/-- C78: read with the standard semantics of functional STRIPS, `move(x, y)` is applicable exactly if the block can be
moved, and leads to the configuration in which this one block has changed place. -/
theorem C78_move (blocks : List String) (hnt : "table" ∉ blocks) (I : Interp String) (σ : Asg String) (loc : String → String)
    (hI : DescribesLocI blocks I loc) (hc : BWConfig blocks (locPairs blocks loc)) (x y : String) (o : Operator)
    (ho : MoveOp blocks x y o) :
    (Sat I o.pre σ ↔ LocMove blocks loc x y) ∧
    ∀ J, LocMove blocks loc x y → SuccessorI I o.effs σ J →
      DescribesLocI blocks J (moveLoc loc x y) ∧ BWConfig blocks (locPairs blocks (moveLoc loc x y)) := by
  obtain ⟨hx, hy, hg⟩ := ho
  rw [ground_move] at hg
  cases hg
  have hxt : x ≠ "table" := fun e => hnt (e ▸ hx)
  have hn : ∀ z, evalT I (bwPlace z).toTerm σ = z := fun z => by simp [Const.toTerm, evalT, bwPlace, hI.names]
  have hloc : evalT I (.app "loc" [(bwPlace x).toTerm]) σ = loc x := by simp [evalT, evalTs, hn, hI.value x hx]
  constructor
  · simp only [Sat, SatAll, evalTs, hn, hloc, hI.differ, hI.clear, and_true]
    constructor
    · rintro ⟨h1, h2, h3, h4⟩
      exact ⟨hx, hy, h1, h2, (h3.resolve_left hxt).2, h4.imp id (fun h => h.2)⟩
    · rintro ⟨-, -, h1, h2, h3, h4⟩
      refine ⟨h1, h2, .inr ⟨hx, h3⟩, ?_⟩
      by_cases hyt : y = "table"
      · exact .inl hyt
      · exact .inr ⟨hy.resolve_left hyt, h4.resolve_left hyt⟩
  · intro J hm hJ
    refine ⟨⟨?_, ?_, ?_, ?_⟩, config_move hnt hc hm⟩
    · intro z s; rw [hJ.const]; exact hI.names z s
    · intro a b; rw [hJ.cmp]; exact hI.differ a b
    · intro z hz
      have hset : ∀ d ds, DemandsAny I [.assign .top "loc" [(bwPlace x).toTerm] (bwPlace y).toTerm,
          .add .top (.user "clear") [.app "loc" [(bwPlace x).toTerm]],
          .del (.atom (.cmp .ne) [(bwPlace y).toTerm, .const (.str "table") "place"]) (.user "clear") [(bwPlace y).toTerm]] σ
          (.set "loc" ds d) ↔ ds = [x] ∧ d = y := by
        intro d ds
        simp [DemandsAny, Demands, Sat, evalTs, hn]
      by_cases h : z = x
      · rw [h, hJ.set "loc" [x] y ((hset y [x]).2 ⟨rfl, rfl⟩)]; simp [moveLoc]
      · rw [hJ.keep "loc" [z] (by intro d hd; have := ((hset d [z]).1 hd).1; simp at this; exact h this), hI.value z hz]
        simp [moveLoc, h]
    · intro z
      have hadd : DemandsAny I [.assign .top "loc" [(bwPlace x).toTerm] (bwPlace y).toTerm,
          .add .top (.user "clear") [.app "loc" [(bwPlace x).toTerm]],
          .del (.atom (.cmp .ne) [(bwPlace y).toTerm, .const (.str "table") "place"]) (.user "clear") [(bwPlace y).toTerm]] σ
          (.add (.user "clear") [z]) ↔ z = loc x := by
        have h2 : I.fn "loc" [x] = loc x := hI.value x hx
        simp [DemandsAny, Demands, Sat, evalTs, evalT, hn, h2]
      have hdel : DemandsAny I [.assign .top "loc" [(bwPlace x).toTerm] (bwPlace y).toTerm,
          .add .top (.user "clear") [.app "loc" [(bwPlace x).toTerm]],
          .del (.atom (.cmp .ne) [(bwPlace y).toTerm, .const (.str "table") "place"]) (.user "clear") [(bwPlace y).toTerm]] σ
          (.del (.user "clear") [z]) ↔ y ≠ "table" ∧ z = y := by
        simp [DemandsAny, Demands, Sat, evalTs, evalT, hn, hI.differ, hI.names]
      rw [hJ.pred, hadd, hdel, hI.clear]
      have h1 := hc.single
      have h2 := hc.support
      simp only [mem_locPairs] at h1 h2
      have h1' : ∀ a ∈ blocks, ∀ a' ∈ blocks, loc a = loc a' → loc a = "table" ∨ a = a' := fun a ha a' ha' e =>
        h1 a a' (loc a) ⟨ha, rfl⟩ ⟨ha', e.symm⟩
      have h2' : ∀ a ∈ blocks, loc a = "table" ∨ loc a ∈ blocks := fun a ha => h2 a _ ⟨ha, rfl⟩
      obtain ⟨-, -, m1, m2, m3, m4⟩ := hm
      clear h1 h2 hadd hdel hJ hI hn hloc hc
      unfold moveLoc
      by_cases hz : z = "table"
      · simp only [hz, true_or, true_and]
        by_cases hy : y = "table"
        · simp [hy]
        · simp only [iff_true]; right; rintro ⟨-, h⟩; exact hy h.symm
      · simp only [hz, false_or]
        constructor
        · rintro (rfl | ⟨⟨k1, k2⟩, k3⟩)
          · refine ⟨(h2' x hx).resolve_left hz, fun w hw e => ?_⟩
            split at e
            · exact m2 e.symm
            · rename_i hwx; rcases h1' w hw x hx e with h | h
              · exact hz (e ▸ h)
              · exact hwx h
          · refine ⟨k1, fun w hw e => ?_⟩
            split at e
            · exact k3 ⟨by rw [e]; exact hz, e.symm⟩
            · exact k2 w hw e
        · rintro ⟨k1, k2⟩
          by_cases hzl : z = loc x
          · exact .inl hzl
          · refine .inr ⟨⟨k1, fun w hw e => ?_⟩, ?_⟩
            · have := k2 w hw
              by_cases hwx : w = x
              · subst hwx; exact hzl e.symm
              · rw [if_neg hwx] at this; exact this e
            · rintro ⟨-, rfl⟩
              have := k2 x hx
              simp at this

/-- C78: the objects that the action `move` takes are a block and then a place: a constant of the language is of the sort of the first parameter exactly if it is
a block, and every constant, the table included, is of the sort of the second. -/
theorem C78_arguments (blocks : List String) (hnt : "table" ∉ blocks) : ∃ v w, bwMove.params = [v, w] ∧ v ≠ w ∧ ∀ c ∈ bwFunConsts blocks,
    ((bwFunLang blocks).isSub c.2 v.sort = true ↔ c.1 ∈ blocks) ∧ (bwFunLang blocks).isSub c.2 w.sort = true := by
  refine ⟨bwFX, bwFY, rfl, by decide, fun c hc => ?_⟩
  rcases List.mem_cons.1 hc with rfl | hc
  · exact ⟨⟨fun h => absurd (show ("place" == "block" || "block" == "object" || ("place" == "block" && "block" == "place")) = true from h) (by decide), fun h => absurd h hnt⟩, rfl⟩
  · obtain ⟨b, hb, rfl⟩ := List.mem_map.1 hc
    exact ⟨⟨fun _ => hb, fun _ => rfl⟩, rfl⟩

/-! ### Non-vacuity -/

example : BWConfig ["b1", "b2"] (locPairs ["b1", "b2"] towerLoc) := by
  refine build_config (.snoc [("b2", "table")] "b1" "b2" (.snoc [] "b2" "table" .nil (by decide) (by decide) (.inl rfl))
    (by decide) (by decide) (.inr (by decide))) (.swap _ _ _) |> fun h => config_locPairs h (fun x y hxy => ?_)
  simp only [List.singleton_append, List.mem_cons, Prod.mk.injEq, List.not_mem_nil, or_false] at hxy
  rcases hxy with ⟨rfl, rfl⟩ | ⟨rfl, rfl⟩ <;> decide

/-- The interpretation of a configuration, and its successor. -/
def locInterp (blocks : List String) (loc : String → String) : Interp String where
  const n _ := match n with | .str x => x | _ => ""
  fn f ds := if f = "loc" then loc (ds.headD "") else ""
  pred p ds := match p with
    | .cmp .ne => ds.headD "" ≠ ds.tail.headD ""
    | .user "clear" => ∃ x, ds = [x] ∧ (x = "table" ∨ (x ∈ blocks ∧ ∀ z ∈ blocks, loc z ≠ x))
    | _ => False
  sort _ _ := True

example : DescribesLocI ["b1", "b2"] (locInterp ["b1", "b2"] towerLoc) towerLoc :=
  ⟨fun _ _ => rfl, fun _ _ => Iff.rfl, fun _ _ => rfl, fun x => ⟨fun ⟨_, e, h⟩ => by cases e; exact h, fun h => ⟨x, rfl, h⟩⟩⟩

example : ∃ o, MoveOp ["b1", "b2"] "b1" "table" o := ⟨_, by decide, .inl rfl, rfl⟩

example : (BWSource.given [("b1", "table")]).Valid (blockNames 1) :=
  build_config (.snoc [] "b1" "table" .nil (by decide) (by decide) (.inl rfl)) (.refl _)

end Tarski

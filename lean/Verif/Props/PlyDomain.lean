import Verif.PlyDomain
import Verif.LanguageTerm
import Verif.Props.PddlTypes
import Verif.Props.PlyProblem
/-! C97: requirements, declarations and whole domains of the PLY-based PDDL reader. -/
namespace Tarski

/-! ### Specification -/

/-- The requirement keys of a domain that the reader supports. -/
def supportedKeys : List ReqKey := [.strips, .typing, .negativePreconditions, .equality, .fluents, .numericFluents, .durativeActions,
  .derivedPredicates]

/-- The sorts of every language that the reader builds, besides `object`. -/
def numericSorts : List String := ["Real", "Integer", "Natural", "Bool"]

/-- The parents of the numeric sorts. -/
def NumAbove (a b : String) : Prop := (a, b) ∈ [("Bool", "Integer"), ("Natural", "Integer"), ("Integer", "Real"), ("Real", "object")]

/-- The new types of a section. -/
def YSect.newTypes : YSect → List String
  | .types es => es.flatMap TypeEntry.names
  | _ => []

/-- The names that a section declares. -/
def YSect.newNames : YSect → List String
  | .types es => es.flatMap TypeEntry.names
  | .constants es => declaredNames es
  | .predicates ps => ps.map (·.name)
  | .functions fs => fs.map (·.skel.name)

/-- The types of the parameters are known. -/
def YSkel.Typed (known : String → Prop) (p : YSkel) : Prop := ∀ w, VTok.type w ∈ p.params → known (primitiveType w)

/-- When a section is accepted: `known` are the types, `taken` the names in use. -/
def SectOK (known taken : String → Prop) : YSect → Prop
  | .types es => SectionOK known taken es
  | .constants es => AllTyped known es ∧ (declaredNames es).Nodup ∧ ∀ c ∈ declaredNames es, ¬ taken c
  | .predicates ps => (∀ p ∈ ps, p.Typed known) ∧ (ps.map (·.name)).Nodup ∧ ∀ p ∈ ps, ¬ taken p.name
  | .functions fs => (∀ f ∈ fs, f.skel.Typed known ∧ ∀ w, f.cod = some w → known (primitiveType w) ∨ primitiveType w ∈ numericSorts) ∧
      (fs.map (·.skel.name)).Nodup ∧ ∀ f ∈ fs, ¬ taken f.skel.name

/-- When the declarations of a domain are accepted: section by section. -/
def BodyOK (known taken : String → Prop) : List YSect → Prop
  | [] => True
  | s :: ss => SectOK known taken s ∧ BodyOK (fun a => known a ∨ a ∈ s.newTypes) (fun a => taken a ∨ a ∈ s.newNames) ss

/-- The sorts of the parameters of a predicate or function, as they are written. -/
def YSkel.sorts (p : YSkel) : List String := (typedVars p.params).map fun v => typeSort v.2

/-- The section declares `f` with these sorts, the last one being the sort of the values. -/
def YSect.Declares (f : String) (sig : List String) : YSect → Prop
  | .predicates ps => ∃ p ∈ ps, p.name = f ∧ sig = p.sorts ++ ["Bool"]
  | .functions fs => ∃ g ∈ fs, g.skel.name = f ∧ sig = g.skel.sorts ++ [match g.cod with | none => "Integer" | some w => primitiveType w]
  | _ => False

/-- The section declares the object `c` with type `t`. -/
def YSect.DeclaresObj (c t : String) : YSect → Prop
  | .constants es => Below es c t
  | _ => False

/-- The entries of all the sections of types. -/
def typeEntries : List YSect → List TypeEntry
  | [] => []
  | .types es :: ss => es ++ typeEntries ss
  | _ :: ss => typeEntries ss

/-! ### Frames -/

theorem setParent_frame {n L s p ow L' e} (h : setParent n L s p ow = some (L', e)) :
    L'.funs = L.funs ∧ L'.sorts = L.sorts ∧ ∀ x y, y ∈ L.anc x → y ∈ L'.anc x := by
  unfold setParent at h
  split at h
  · cases h; exact ⟨rfl, rfl, fun _ _ h => h⟩
  · simp only at h
    split at h
    · cases h
    · cases h; exact ⟨rfl, rfl, fun _ _ h => h⟩
    · cases h
      refine ⟨rfl, rfl, fun x y hy => ?_⟩
      simp only [upd]
      split
      · subst x; rw [foldl_set]; exact .inl hy
      · exact hy

theorem declSort_frame {n L a p L'} (h : declSort n L a p = some (L', none)) :
    L'.funs = L.funs ∧ (∀ x, (L'.sorts x).isSome ↔ x = a ∨ (L.sorts x).isSome) ∧ ∀ x y, y ∈ L.anc x → y ∈ L'.anc x := by
  unfold declSort at h
  split at h
  · cases h
  · unfold attachSort at h
    split at h
    · cases h
    · simp only at h
      obtain ⟨h1, h2, h3⟩ := setParent_frame h
      refine ⟨h1, fun x => ?_, h3⟩
      rw [h2]
      simp only [upd]
      split <;> simp_all

/-- The sorts are the types and the numeric ones. -/
def SortsInv (st : PInst) : Prop := ∀ a, (st.lang.sorts a).isSome ↔ a ∈ st.types ∨ a ∈ numericSorts

structure TFrame (st st' : PInst) : Prop where
  funs : st'.lang.funs = st.lang.funs
  sorts : SortsInv st → SortsInv st'
  anc : ∀ x y, y ∈ st.lang.anc x → y ∈ st'.lang.anc x

theorem TFrame.refl (st) : TFrame st st := ⟨rfl, id, fun _ _ h => h⟩

theorem TFrame.trans {a b c} (h1 : TFrame a b) (h2 : TFrame b c) : TFrame a c :=
  ⟨h2.funs.trans h1.funs, fun h => h2.sorts (h1.sorts h), fun x y h => h2.anc x y (h1.anc x y h)⟩

theorem declType_frame {n st a p st'} (h : declType n st a p = some (st', none)) : TFrame st st' := by
  unfold declType at h
  split at h
  · cases h
  · cases h
  · rename_i L hL
    cases h
    obtain ⟨h1, h2, h3⟩ := declSort_frame hL
    refine ⟨h1, fun hs x => ?_, h3⟩
    rw [h2, hs x, List.mem_cons, or_assoc]

theorem subDefs_frame {n sup added} : ∀ {subs st st'}, subDefs n sup added st subs = some (st', none) → TFrame st st' := by
  intro subs
  induction subs with
  | nil => intro st st' h; simp only [subDefs] at h; cases h; exact .refl _
  | cons s ss ih =>
    intro st st' h
    simp only [subDefs] at h
    split at h
    · split at h
      · split at h
        · cases h
        · cases h
        · rename_i L hL
          obtain ⟨h1, h2, h3⟩ := setParent_frame hL
          have hf : TFrame st { st with lang := L } := ⟨h1, fun hs x => by simpa only [h2] using hs x, h3⟩
          exact hf.trans (ih h)
      · cases h
    · split at h
      · cases h
      · cases h
      · rename_i st1 h1
        exact (declType_frame h1).trans (ih h)

theorem types_frame {n} : ∀ {es st st'}, typesSection n st es = some (st', none) → TFrame st st' := by
  intro es
  induction es with
  | nil => intro st st' h; simp only [typesSection] at h; cases h; exact .refl _
  | cons e es ih =>
    intro st st' h
    simp only [typesSection] at h
    split at h
    · cases h
    · cases h
    · rename_i st1 h1
      refine TFrame.trans ?_ (ih h)
      cases e with
      | single a => exact declType_frame h1
      | group sup subs =>
        simp only [typeEntry, superDef] at h1
        split at h1
        · exact subDefs_frame h1
        · split at h1
          · cases h1
          · cases h1
          · rename_i st2 h2
            exact (declType_frame h2).trans (subDefs_frame h1)

/-- What a section of objects changes besides the domains. -/
structure CFrame (st st' : PInst) (P : String → String → Prop) : Prop where
  funs : st'.lang.funs = st.lang.funs
  sorts : st'.lang.sorts = st.lang.sorts
  anc : st'.lang.anc = st.lang.anc
  consts : ∀ c t, st'.lang.consts c = some t ↔ st.lang.consts c = some t ∨ P c t

theorem constDefs_frame {n t} : ∀ {cs st st'}, TypesInv st → t ∈ st.types → constDefs n t st cs = some (st', none) →
    CFrame st st' (fun a b => a ∈ cs ∧ b = t) := by
  intro cs
  induction cs with
  | nil => intro st st' _ _ h; simp only [constDefs] at h; cases h; exact ⟨rfl, rfl, rfl, by simp⟩
  | cons c cs ih =>
    intro st st' h ht hd
    simp only [constDefs] at hd
    split at hd
    · cases hd
    · cases hd
    · rename_i L hL
      obtain ⟨hfree, hf⟩ := declConstant_filled h ht hL
      have h2 := ih hf.inv ht hd
      have h1 : L.funs = st.lang.funs ∧ L.sorts = st.lang.sorts ∧ L.anc = st.lang.anc ∧ L.consts = upd st.lang.consts c (some t) := by
        unfold declConstant at hL
        rw [h.typesReg t ht] at hL
        simp only [Bool.false_eq_true, if_false] at hL
        split at hL
        · cases hL
        · split at hL
          · cases hL
          · cases hL; exact ⟨rfl, rfl, rfl, rfl⟩
      have hnone : st.lang.consts c = none := by
        cases hx : st.lang.consts c with
        | none => rfl
        | some q => exact absurd ((h.names.const c q).mp hx) (by intro e; exact hfree (by unfold Taken; rw [e]; simp))
      refine ⟨h2.funs.trans h1.1, h2.sorts.trans h1.2.1, h2.anc.trans h1.2.2.1, fun a b => ?_⟩
      rw [h2.consts, h1.2.2.2]
      simp only [upd, List.mem_cons]
      by_cases hac : a = c
      · subst hac
        simp only [if_true, Option.some.injEq, hnone]
        constructor
        · rintro (rfl | ⟨_, rfl⟩) <;> simp
        · rintro (h | ⟨_, rfl⟩)
          · cases h
          · exact .inl rfl
      · simp [hac]

theorem CFrame.trans {a b c P Q} (h1 : CFrame a b P) (h2 : CFrame b c Q) : CFrame a c (fun x y => P x y ∨ Q x y) :=
  ⟨h2.funs.trans h1.funs, h2.sorts.trans h1.sorts, h2.anc.trans h1.anc, fun x y => by rw [h2.consts, h1.consts, or_assoc]⟩

theorem consts_frame {n} : ∀ {es st st'}, TypesInv st → constsSection n st es = some (st', none) → CFrame st st' (Below es) := by
  intro es
  induction es with
  | nil => intro st st' _ h; simp only [constsSection] at h; cases h; exact ⟨rfl, rfl, rfl, by simp [Below]⟩
  | cons e es ih =>
    intro st st' h hd
    simp only [constsSection] at hd
    split at hd
    · cases hd
    · cases hd
    · rename_i st1 h1
      cases e with
      | single a => simp only [constEntry] at h1; cases h1
      | group t cs =>
        simp only [constEntry] at h1
        split at h1
        · rename_i ht
          obtain ⟨_, hf⟩ := constDefs_filled h ht h1
          have h3 := (constDefs_frame h ht h1).trans (ih hf.inv hd)
          refine ⟨h3.funs, h3.sorts, h3.anc, fun c x => ?_⟩
          rw [h3.consts]
          apply or_congr_right
          constructor
          · rintro (⟨h4, rfl⟩ | ⟨l, h4, h5⟩)
            · exact ⟨cs, by simp, h4⟩
            · exact ⟨l, by simp [h4], h5⟩
          · rintro ⟨l, h4, h5⟩
            simp only [List.mem_cons, TypeEntry.group.injEq] at h4
            rcases h4 with ⟨rfl, rfl⟩ | h4
            · exact .inl ⟨h5, rfl⟩
            · exact .inr ⟨l, h4, h5⟩
        · cases h1

/-! ### Skeletons and symbols -/

theorem normalizeVars_iff {L : YLang} (hobj : "object" ∈ L.types) : ∀ (toks : List VTok) (pending : List String),
    (∃ vs, normalizeVars L pending toks = .ok vs) ↔ ∀ w, VTok.type w ∈ toks → primitiveType w ∈ L.types := by
  intro toks
  induction toks with
  | nil => intro p; simp [normalizeVars, hobj]
  | cons tok toks ih =>
    intro p
    cases tok with
    | var x => rw [normalizeVars, ih]; simp
    | type t =>
      rw [normalizeVars]
      constructor
      · rintro ⟨vs, h⟩ w hw
        split at h
        · rename_i ht
          split at h
          · cases h
          · rename_i vs' hv
            simp only [List.mem_cons, VTok.type.injEq] at hw
            rcases hw with rfl | hw
            · exact ht
            · exact (ih []).mp ⟨_, hv⟩ w hw
        · cases h
      · intro h
        obtain ⟨vs, hv⟩ := (ih []).mpr fun w hw => h w (by simp [hw])
        rw [if_pos (h t (by simp)), hv]
        exact ⟨_, rfl⟩

theorem readSkels_ok {L : YLang} (hobj : "object" ∈ L.types) : ∀ (ps : List YSkel) ds, readSkels L ps = .ok ds →
    (∀ p ∈ ps, p.Typed (· ∈ L.types)) ∧ ds = ps.map fun p => (p.name, p.sorts) := by
  intro ps
  induction ps with
  | nil => intro ds h; simp only [readSkels] at h; cases h; simp
  | cons p ps ih =>
    intro ds h
    simp only [readSkels] at h
    split at h
    · cases h
    · rename_i vs hv
      split at h
      · cases h
      · rename_i ds' hd
        cases h
        obtain ⟨h1, h2⟩ := ih _ hd
        obtain ⟨e, -, -⟩ := normalizeVars_ok _ _ _ hv
        refine ⟨fun q hq => ?_, ?_⟩
        · rcases List.mem_cons.mp hq with rfl | hq
          · exact (normalizeVars_iff hobj _ _).mp ⟨_, hv⟩
          · exact h1 q hq
        · rw [h2, List.map_cons, e]
          simp [YSkel.sorts]

theorem readSkels_returns {L : YLang} (hobj : "object" ∈ L.types) : ∀ (ps : List YSkel), (∀ p ∈ ps, p.Typed (· ∈ L.types)) →
    ∃ ds, readSkels L ps = .ok ds := by
  intro ps
  induction ps with
  | nil => intro _; exact ⟨[], rfl⟩
  | cons p ps ih =>
    intro h
    obtain ⟨vs, hv⟩ := (normalizeVars_iff hobj p.params []).mpr (h p (by simp))
    obtain ⟨ds, hd⟩ := ih fun q hq => h q (by simp [hq])
    exact ⟨_, by rw [readSkels, hv, hd]⟩

/-- What the declaration of functions changes. -/
structure SFrame (st st' : PInst) (P : String → List String → Prop) (names : List String) : Prop where
  inv : TypesInv st'
  types : st'.types = st.types
  sorts : st'.lang.sorts = st.lang.sorts
  consts : st'.lang.consts = st.lang.consts
  anc : st'.lang.anc = st.lang.anc
  dom : st'.lang.dom = st.lang.dom
  hist : st'.lang.hist = st.lang.hist
  taken : ∀ a, Taken st' a ↔ Taken st a ∨ a ∈ names
  funs : ∀ f sig, st'.lang.funs f = some sig ↔ st.lang.funs f = some sig ∨ P f sig

theorem declFunction_frame {st : PInst} (h : TypesInv st) {f sig L} (hd : declFunction st.lang f sig = (L, none)) :
    ¬ Taken st f ∧ (∀ s ∈ sig, (st.lang.sorts s).isSome) ∧ SFrame st { st with lang := L } (fun g s => g = f ∧ s = sig) [f] := by
  have hni : NameInv L := nameInv_step (n := 0) (op := .function f sig) h.names (by rw [lstep, hd])
  have hh : HierInv L := hier_step (n := 0) (op := .function f sig) h.hier h.names trivial (by simp) (by simp) (by rw [lstep, hd])
  unfold declFunction at hd
  split at hd
  · cases hd
  · rename_i hck
    have hfree : st.lang.index f = none := (checkName_none hck).2
    split at hd
    · cases hd
    · rename_i hs
      split at hd
      · cases hd
      · cases hd
        refine ⟨by simp [Taken, hfree], ?_, ⟨⟨hh, hni, h.objTop, h.objT, h.typesReg, h.top, h.histTypes, h.rank⟩, rfl, rfl, rfl, rfl, rfl, rfl, ?_, ?_⟩⟩
        · intro s hm
          cases hx : st.lang.sorts s with
          | some _ => rfl
          | none => exact absurd (List.any_eq_true.mpr ⟨s, hm, by simp [hx]⟩) hs
        · intro a
          simp only [Taken, upd]
          by_cases hac : a = f <;> simp [hac]
        · intro g s
          have hnone : st.lang.funs f = none := by
            cases hx : st.lang.funs f with
            | none => rfl
            | some q => exact absurd ((h.names.func f q).mp hx) (by rw [hfree]; simp)
          simp only [upd]
          by_cases hg : g = f
          · subst hg; simp only [if_true, hnone, Option.some.injEq]
            constructor
            · rintro rfl; exact .inr ⟨trivial, rfl⟩
            · rintro (h | ⟨_, rfl⟩)
              · cases h
              · rfl
          · simp [hg]

theorem declFunction_accepts {st : PInst} (h : TypesInv st) {f sig} (hf : ¬ Taken st f) (hs : ∀ s ∈ sig, (st.lang.sorts s).isSome)
    (hne : sig ≠ []) : ∃ L, declFunction st.lang f sig = (L, none) := by
  have hfree : st.lang.index f = none := by simpa [Taken] using hf
  have hnone : st.lang.funs f = none := by
    cases hx : st.lang.funs f with
    | none => rfl
    | some q => exact absurd ((h.names.func f q).mp hx) (by rw [hfree]; simp)
  have h1 : ¬ (sig.any fun a => (st.lang.sorts a).isNone) = true := by
    intro hx
    obtain ⟨a, ha, hb⟩ := List.any_eq_true.mp hx
    have := hs a ha
    cases hc : st.lang.sorts a <;> simp [hc] at hb this
  have h2 : ¬ sig.isEmpty = true := by simpa using hne
  unfold declFunction
  simp only [checkName, hnone, hfree, Option.isSome_none, Bool.false_eq_true, if_false, if_neg h1, if_neg h2]
  exact ⟨_, rfl⟩

theorem declSyms_frame : ∀ {ds : List (String × List String)} {st st'}, TypesInv st → declSyms st ds = (st', none) →
    ((ds.map Prod.fst).Nodup ∧ (∀ d ∈ ds, ¬ Taken st d.1 ∧ ∀ s ∈ d.2, (st.lang.sorts s).isSome)) ∧
      SFrame st st' (fun g s => (g, s) ∈ ds) (ds.map Prod.fst) := by
  intro ds
  induction ds with
  | nil =>
    intro st st' h hd
    simp only [declSyms] at hd; cases hd
    exact ⟨by simp, ⟨h, rfl, rfl, rfl, rfl, rfl, rfl, by simp, by simp⟩⟩
  | cons d ds ih =>
    intro st st' h hd
    obtain ⟨f, sig⟩ := d
    simp only [declSyms] at hd
    split at hd
    · cases hd
    · rename_i L hL
      obtain ⟨h1, h2, h3⟩ := declFunction_frame h hL
      obtain ⟨⟨h4, h5⟩, h6⟩ := ih h3.inv hd
      refine ⟨⟨?_, ?_⟩, ⟨h6.inv, h6.types.trans h3.types, h6.sorts.trans h3.sorts, h6.consts.trans h3.consts, h6.anc.trans h3.anc,
        h6.dom.trans h3.dom, h6.hist.trans h3.hist, ?_, ?_⟩⟩
      · rw [List.map_cons, List.nodup_cons]
        refine ⟨fun hm => ?_, h4⟩
        obtain ⟨d, hd1, hd2⟩ := List.mem_map.mp hm
        exact (h5 d hd1).1 ((h3.taken _).mpr (.inr (by simp [hd2])))
      · intro d hd1
        rcases List.mem_cons.mp hd1 with rfl | hd1
        · exact ⟨h1, h2⟩
        · obtain ⟨h7, h8⟩ := h5 d hd1
          exact ⟨fun hk => h7 ((h3.taken _).mpr (.inl hk)), fun s hs => by have := h8 s hs; rwa [h3.sorts] at this⟩
      · intro a; rw [h6.taken, h3.taken]; simp [or_assoc]
      · intro g s; rw [h6.funs, h3.funs]; simp [or_assoc]

theorem declSyms_accepts : ∀ {ds : List (String × List String)} {st}, TypesInv st → (ds.map Prod.fst).Nodup →
    (∀ d ∈ ds, ¬ Taken st d.1 ∧ d.2 ≠ [] ∧ ∀ s ∈ d.2, (st.lang.sorts s).isSome) → ∃ st', declSyms st ds = (st', none) := by
  intro ds
  induction ds with
  | nil => intro st _ _ _; exact ⟨st, rfl⟩
  | cons d ds ih =>
    intro st h hnd hall
    obtain ⟨f, sig⟩ := d
    obtain ⟨h1, h2, h3⟩ := hall _ (List.mem_cons_self ..)
    obtain ⟨L, hL⟩ := declFunction_accepts h h1 h3 h2
    obtain ⟨_, _, hf⟩ := declFunction_frame h hL
    rw [List.map_cons, List.nodup_cons] at hnd
    obtain ⟨st', hst⟩ := ih (st := { st with lang := L }) hf.inv hnd.2 (by
      intro d hd
      obtain ⟨h4, h5, h6⟩ := hall d (List.mem_cons_of_mem _ hd)
      refine ⟨fun hk => ?_, h5, fun s hs => by rw [hf.sorts]; exact h6 s hs⟩
      rcases (hf.taken _).mp hk with hk | hk
      · exact h4 hk
      · simp only [List.mem_singleton] at hk
        exact hnd.1 (List.mem_map.mpr ⟨d, hd, hk⟩))
    exact ⟨st', by rw [declSyms, hL]; exact hst⟩

/-! ### Sections and bodies -/

structure BodyInv (st : PInst) : Prop where
  inv : TypesInv st
  sorts : SortsInv st
  bool : "object" ∈ st.lang.anc "Bool"

theorem bodyInv_init : BodyInv PInst.init := by
  refine ⟨pinit_inv, fun a => ?_, by decide⟩
  have h : (PInst.init.lang.sorts a).isSome ↔ Taken PInst.init a := by
    have h1 : PInst.init.lang.sorts = upd (upd (upd (upd (upd (fun _ => none) "object" (some ⟨false, false⟩)) "Real"
      (some ⟨true, true⟩)) "Integer" (some ⟨true, true⟩)) "Natural" (some ⟨true, true⟩)) "Bool" (some ⟨true, true⟩) := rfl
    rw [pinit_taken, h1]
    simp only [upd, List.mem_cons, List.not_mem_nil, or_false]
    by_cases h1 : a = "object" <;> by_cases h2 : a = "Real" <;> by_cases h3 : a = "Integer" <;>
      by_cases h4 : a = "Natural" <;> by_cases h5 : a = "Bool" <;> simp [h1, h2, h3, h4, h5]
  rw [h, pinit_taken]
  simp [PInst.init, numericSorts]

/-- What a section changes. -/
structure SectStep (st st' : PInst) (s : YSect) : Prop where
  inv : BodyInv st'
  types : ∀ a, a ∈ st'.types ↔ a ∈ st.types ∨ a ∈ s.newTypes
  taken : ∀ a, Taken st' a ↔ Taken st a ∨ a ∈ s.newNames
  funs : ∀ f sig, st'.lang.funs f = some sig ↔ st.lang.funs f = some sig ∨ s.Declares f sig
  consts : ∀ c t, st'.lang.consts c = some t ↔ st.lang.consts c = some t ∨ s.DeclaresObj c t
  dom : ∀ c x, c ∈ st'.lang.dom x ↔ c ∈ st.lang.dom x ∨ ∃ t, t ∈ st.types ∧ s.DeclaresObj c t ∧ Star st.lang.HistR t x
  histIn : ∀ a b, st'.lang.HistR a b → st.lang.HistR a b ∨ Below (typeEntries [s]) a b ∨ b = "object" ∧ a ∉ st.types
  histOut : ∀ a b, st.lang.HistR a b ∨ Below (typeEntries [s]) a b → st'.lang.HistR a b
  fresh : ∀ a ∈ s.newTypes, a ∉ st.types → ¬ Taken st a
  objT : ∀ c t, s.DeclaresObj c t → t ∈ st.types

theorem SFrame.step {st st' names} {P : String → List String → Prop} (h : SFrame st st' P names) (hi : BodyInv st) {s : YSect}
    (ht : s.newTypes = []) (hn : s.newNames = names) (hp : ∀ f sig, P f sig ↔ s.Declares f sig) (ho : ∀ c t, ¬ s.DeclaresObj c t)
    (he : typeEntries [s] = []) : SectStep st st' s := by
  refine ⟨⟨h.inv, fun a => ?_, ?_⟩, fun a => ?_, fun a => ?_, fun f sig => ?_, fun c t => ?_, fun c x => ?_, fun a b => ?_, fun a b => ?_, ?_, fun c t h => absurd h (ho c t)⟩
  · rw [h.sorts, h.types]; exact hi.sorts a
  · rw [h.anc]; exact hi.bool
  · rw [h.types, ht]; simp
  · rw [h.taken, hn]
  · rw [h.funs, hp]
  · rw [h.consts]; simp [ho]
  · rw [h.dom]; simp [ho]
  · simp only [Lang.HistR, h.hist]; exact .inl
  · rw [he]; simp only [Lang.HistR, h.hist, Below]; rintro (h | ⟨_, h, _⟩)
    · exact h
    · cases h
  · rw [ht]; simp

theorem predsSection_step {n st st' ps} (hi : BodyInv st) (h : predsSection n st ps = (st', none)) :
    SectOK (· ∈ st.types) (Taken st) (.predicates ps) ∧ SectStep st st' (.predicates ps) := by
  unfold predsSection at h
  split at h
  · cases h
  · rename_i ds hd
    obtain ⟨h1, h2⟩ := readSkels_ok hi.inv.objT ps ds hd
    subst h2
    obtain ⟨⟨h3, h4⟩, h5⟩ := declSyms_frame hi.inv h
    simp only [List.map_map] at h3 h5
    refine ⟨⟨h1, h3, fun p hp => ?_⟩, h5.step hi rfl rfl ?_ (fun _ _ h => h) rfl⟩
    · exact (h4 (p.name, p.sorts ++ ["Bool"]) (by simp only [List.map_map, List.mem_map]; exact ⟨p, hp, rfl⟩)).1
    · intro f sig
      simp only [List.mem_map, YSect.Declares, Function.comp, Prod.mk.injEq]
      exact exists_congr fun p => and_congr_right fun _ => and_congr_right fun _ => eq_comm

theorem zip_map_map {α β γ} (f : α → β) (g : β × α → γ) (l : List α) : ((l.map f).zip l).map g = l.map fun a => g (f a, a) := by
  induction l with
  | nil => rfl
  | cons a l ih => simp [ih]

theorem funsSection_step {n st st' fs} (hi : BodyInv st) (h : funsSection n st fs = (st', none)) :
    SectOK (· ∈ st.types) (Taken st) (.functions fs) ∧ SectStep st st' (.functions fs) := by
  unfold funsSection at h
  split at h
  · cases h
  · rename_i ds hd
    obtain ⟨h1, h2⟩ := readSkels_ok hi.inv.objT _ ds hd
    subst h2
    rw [List.map_map, zip_map_map] at h
    obtain ⟨⟨h3, h4⟩, h5⟩ := declSyms_frame hi.inv h
    simp only [List.map_map] at h3 h5
    have h6 : ∀ f ∈ fs, ¬ Taken st f.skel.name ∧ ∀ s ∈ f.skel.sorts ++ [f.codomain], (st.lang.sorts s).isSome := fun f hf =>
      h4 (f.skel.name, f.skel.sorts ++ [f.codomain]) (List.mem_map.mpr ⟨f, hf, rfl⟩)
    refine ⟨⟨fun f hf => ⟨h1 f.skel (List.mem_map.mpr ⟨f, hf, rfl⟩), fun w hw => ?_⟩, h3, fun f hf => (h6 f hf).1⟩,
      h5.step hi rfl rfl ?_ (fun _ _ h => h) rfl⟩
    · have h7 := (h6 f hf).2 (primitiveType w) (by simp [YFunSkel.codomain, hw])
      exact (hi.sorts _).mp h7
    · intro f sig
      simp only [List.mem_map, YSect.Declares, Function.comp, Prod.mk.injEq]
      exact exists_congr fun p => and_congr_right fun _ => and_congr_right fun _ => eq_comm

theorem sect_step {n st st' s} (hi : BodyInv st) (h : readSect n st s = some (st', none)) :
    SectOK (· ∈ st.types) (Taken st) s ∧ SectStep st st' s := by
  cases s with
  | types es =>
    obtain ⟨h1, h2⟩ := section_grown hi.inv h
    have h3 := types_frame h
    refine ⟨h1, ⟨⟨h2.inv, h3.sorts hi.sorts, h3.anc _ _ hi.bool⟩, h2.types, h2.taken, fun f sig => ?_, fun c t => ?_, fun c x => ?_, fun a b => ?_,
      fun a b => ?_, h2.fresh, fun _ _ h => h.elim⟩⟩
    · rw [h3.funs]; simp [YSect.Declares]
    · rw [h2.same.2]; simp [YSect.DeclaresObj]
    · rw [h2.same.1]; simp [YSect.DeclaresObj]
    · simpa only [typeEntries, List.append_nil] using h2.histIn a b
    · simpa only [typeEntries, List.append_nil] using h2.histOut a b
  | constants es =>
    obtain ⟨h1, h2⟩ := consts_filled hi.inv h
    have h3 := consts_frame hi.inv h
    refine ⟨h1, ⟨⟨h2.inv, fun a => by rw [h3.sorts, h2.types]; exact hi.sorts a, by rw [h3.anc]; exact hi.bool⟩, fun a => ?_, h2.taken, fun f sig => ?_,
      h3.consts, fun c x => ?_, fun a b => ?_, fun a b => ?_, ?_, ?_⟩⟩
    · rw [h2.types]; simp [YSect.newTypes]
    · rw [h3.funs]; simp [YSect.Declares]
    · rw [h2.dom]
      apply or_congr_right
      apply exists_congr
      intro t
      constructor
      · rintro ⟨⟨cs, h4, h5⟩, h6⟩
        obtain ⟨_, _, e, ht⟩ := h1.1 _ h4
        cases e
        exact ⟨ht, ⟨cs, h4, h5⟩, h6⟩
      · rintro ⟨_, h4, h5⟩; exact ⟨h4, h5⟩
    · simp only [Lang.HistR, h2.hist]; exact .inl
    · simp only [Lang.HistR, h2.hist, typeEntries, Below]; rintro (h | ⟨_, h, _⟩)
      · exact h
      · cases h
    · simp [YSect.newTypes]
    · rintro c t ⟨cs, h4, _⟩
      obtain ⟨_, _, e, ht⟩ := h1.1 _ h4
      cases e
      exact ht
  | predicates ps => exact predsSection_step hi (by simpa [readSect] using h)
  | functions fs => exact funsSection_step hi (by simpa [readSect] using h)

theorem typedVars_type : ∀ (toks : List VTok) {v w}, (v, some w) ∈ typedVars toks → VTok.type w ∈ toks := by
  have hn : ∀ (toks : List VTok) {w}, nextType toks = some w → VTok.type w ∈ toks := by
    intro toks
    induction toks with
    | nil => intro w h; cases h
    | cons tok toks ih =>
      intro w h
      cases tok with
      | type t => simp only [nextType, Option.some.injEq] at h; simp [h]
      | var x => exact List.mem_cons_of_mem _ (ih h)
  intro toks
  induction toks with
  | nil => intro v w h; cases h
  | cons tok toks ih =>
    intro v w h
    cases tok with
    | type t => exact List.mem_cons_of_mem _ (ih h)
    | var x =>
      simp only [typedVars, List.mem_cons, Prod.mk.injEq] at h
      rcases h with ⟨_, h⟩ | h
      · exact List.mem_cons_of_mem _ (hn _ h.symm)
      · exact List.mem_cons_of_mem _ (ih h)

theorem YSkel.Typed.sorts {st} (hi : BodyInv st) {p : YSkel} (h : p.Typed (· ∈ st.types)) : ∀ s ∈ p.sorts, (st.lang.sorts s).isSome := by
  intro s hs
  obtain ⟨⟨v, t⟩, h1, rfl⟩ := List.mem_map.mp hs
  rw [hi.sorts]
  cases t with
  | none => exact .inl hi.inv.objT
  | some w => exact .inl (h w (typedVars_type _ h1))

theorem sect_returns {st s} (hi : BodyInv st) (h : SectOK (· ∈ st.types) (Taken st) s) :
    ∃ N st', ∀ n, N ≤ n → readSect n st s = some (st', none) := by
  cases s with
  | types es => exact section_returns hi.inv h
  | constants es => exact consts_returns hi.inv h.1 h.2.1 h.2.2
  | predicates ps =>
    obtain ⟨h1, h2, h3⟩ := h
    have hd : ∃ st', declSyms st (ps.map fun p => (p.name, p.sorts ++ ["Bool"])) = (st', none) := by
      refine declSyms_accepts hi.inv (by rw [List.map_map]; exact h2) fun d hd => ?_
      obtain ⟨p, hp, rfl⟩ := List.mem_map.mp hd
      refine ⟨h3 p hp, by simp, fun s hs => ?_⟩
      rcases List.mem_append.mp hs with hs | hs
      · exact (h1 p hp).sorts hi s hs
      · simp only [List.mem_singleton] at hs; subst hs; rw [hi.sorts]; exact .inr (by decide)
    obtain ⟨st', hst⟩ := hd
    refine ⟨0, st', fun n _ => ?_⟩
    obtain ⟨ds, hds⟩ := readSkels_returns (L := st.yLang n) hi.inv.objT ps h1
    obtain ⟨-, rfl⟩ := readSkels_ok (L := st.yLang n) hi.inv.objT ps ds hds
    simp only [readSect, predsSection, hds, List.map_map]
    exact congrArg some hst
  | functions fs =>
    obtain ⟨h1, h2, h3⟩ := h
    have hd : ∃ st', declSyms st (fs.map fun f => (f.skel.name, f.skel.sorts ++ [f.codomain])) = (st', none) := by
      refine declSyms_accepts hi.inv (by rw [List.map_map]; exact h2) fun d hd => ?_
      obtain ⟨f, hf, rfl⟩ := List.mem_map.mp hd
      refine ⟨h3 f hf, by simp, fun s hs => ?_⟩
      rcases List.mem_append.mp hs with hs | hs
      · exact (h1 f hf).1.sorts hi s hs
      · simp only [List.mem_singleton] at hs; subst hs
        rw [hi.sorts]
        cases hc : f.cod with
        | none => simp [YFunSkel.codomain, hc, numericSorts]
        | some w => simp only [YFunSkel.codomain, hc]; exact (h1 f hf).2 w hc
    obtain ⟨st', hst⟩ := hd
    refine ⟨0, st', fun n _ => ?_⟩
    have h4 : ∀ p ∈ fs.map (·.skel), p.Typed (· ∈ st.types) := by
      intro p hp
      obtain ⟨f, hf, rfl⟩ := List.mem_map.mp hp
      exact (h1 f hf).1
    obtain ⟨ds, hds⟩ := readSkels_returns (L := st.yLang n) hi.inv.objT _ h4
    obtain ⟨-, rfl⟩ := readSkels_ok (L := st.yLang n) hi.inv.objT _ ds hds
    simp only [readSect, funsSection, hds]
    rw [List.map_map, zip_map_map]
    exact congrArg some hst

theorem sectOK_congr {k1 k2 t1 t2 : String → Prop} (s : YSect) (hk : ∀ a, k1 a ↔ k2 a) (ht : ∀ a, t1 a ↔ t2 a) : SectOK k1 t1 s ↔ SectOK k2 t2 s := by
  have h1 : k1 = k2 := funext fun a => propext (hk a)
  have h2 : t1 = t2 := funext fun a => propext (ht a)
  rw [h1, h2]

theorem bodyOK_congr {k1 k2 t1 t2 : String → Prop} (ss : List YSect) (hk : ∀ a, k1 a ↔ k2 a) (ht : ∀ a, t1 a ↔ t2 a) : BodyOK k1 t1 ss ↔ BodyOK k2 t2 ss := by
  have h1 : k1 = k2 := funext fun a => propext (hk a)
  have h2 : t1 = t2 := funext fun a => propext (ht a)
  rw [h1, h2]

/-- The history of the types. -/
structure HistInv (st : PInst) (E : List TypeEntry) : Prop where
  typeIn : ∀ a b, a ∈ st.types → st.lang.HistR a b → Below E a b ∨ b = "object"
  typeOut : ∀ a b, Below E a b → st.lang.HistR a b
  numIn : ∀ a b, a ∈ numericSorts → st.lang.HistR a b → Star NumAbove a b
  numOut : ∀ a b, NumAbove a b → st.lang.HistR a b
  numFree : ∀ a ∈ numericSorts, a ∉ st.types ∧ Taken st a

theorem histInv_init : HistInv PInst.init [] := by
  refine ⟨?_, by simp [Below], ?_, fun a b h => by simpa [Lang.HistR, pinit_hist, NumAbove] using h, ?_⟩
  · intro a b ha hab; simp [PInst.init] at ha; subst ha; simp [Lang.HistR, pinit_hist] at hab
  · intro a b _ hab; exact .single (by simpa [Lang.HistR, pinit_hist, NumAbove] using hab)
  · intro a ha
    refine ⟨?_, (pinit_taken a).mpr (by simp only [numericSorts] at ha; simp at ha ⊢; tauto)⟩
    simp only [numericSorts] at ha
    simp [PInst.init]; rintro rfl; simp at ha

theorem numAbove_object {a} (h : a ∈ numericSorts) : Star NumAbove a "object" := by
  have h1 : NumAbove "Real" "object" := by simp [NumAbove]
  have h2 : NumAbove "Integer" "Real" := by simp [NumAbove]
  have h3 : NumAbove "Natural" "Integer" := by simp [NumAbove]
  have h4 : NumAbove "Bool" "Integer" := by simp [NumAbove]
  have h5 := Star.single h1
  have h6 := Star.step _ _ _ h2 h5
  simp only [numericSorts, List.mem_cons, List.not_mem_nil, or_false] at h
  rcases h with rfl | rfl | rfl | rfl
  · exact h5
  · exact h6
  · exact .step _ _ _ h3 h6
  · exact .step _ _ _ h4 h6

theorem HistInv.step {st st' E s} (h : HistInv st E) (hi : BodyInv st) (hs : SectStep st st' s) : HistInv st' (E ++ typeEntries [s]) := by
  have hb : ∀ a b, Below (E ++ typeEntries [s]) a b ↔ Below E a b ∨ Below (typeEntries [s]) a b := by
    intro a b
    simp only [Below, List.mem_append]
    constructor
    · rintro ⟨l, h | h, h'⟩
      · exact .inl ⟨l, h, h'⟩
      · exact .inr ⟨l, h, h'⟩
    · rintro (⟨l, h, h'⟩ | ⟨l, h, h'⟩)
      · exact ⟨l, .inl h, h'⟩
      · exact ⟨l, .inr h, h'⟩
  have hnew : ∀ a b, Below (typeEntries [s]) a b → a ∈ s.newTypes := by
    rintro a b ⟨l, h1, h2⟩
    cases s with
    | types es =>
      simp only [typeEntries, List.append_nil] at h1
      exact List.mem_flatMap.mpr ⟨_, h1, by simp [TypeEntry.names, h2]⟩
    | _ => simp [typeEntries] at h1
  have hnn : ∀ a ∈ s.newTypes, a ∉ numericSorts := by
    intro a ha hn
    obtain ⟨h1, h2⟩ := h.numFree a hn
    exact hs.fresh a ha h1 h2
  refine ⟨fun a b ha hab => ?_, fun a b hab => ?_, fun a b ha hab => ?_, fun a b hab => hs.histOut a b (.inl (h.numOut a b hab)), fun a ha => ?_⟩
  · rw [hb]
    rcases hs.histIn a b hab with h1 | h1 | h1
    · rcases (hs.types a).mp ha with h2 | h2
      · rcases h.typeIn a b h2 h1 with h3 | h3
        · exact .inl (.inl h3)
        · exact .inr h3
      · by_cases h4 : a ∈ st.types
        · rcases h.typeIn a b h4 h1 with h3 | h3
          · exact .inl (.inl h3)
          · exact .inr h3
        · have h5 := hs.fresh a h2 h4
          have h6 := (hi.inv.hier.histReg _ _ h1).1
          exact absurd (by unfold Taken; rw [(hi.inv.names.sort a).mp h6]; simp) h5
    · exact .inl (.inr h1)
    · exact .inr h1.1
  · rcases (hb a b).mp hab with h1 | h1
    · exact hs.histOut a b (.inl (h.typeOut a b h1))
    · exact hs.histOut a b (.inr h1)
  · rcases hs.histIn a b hab with h1 | h1 | h1
    · exact h.numIn a b ha h1
    · exact absurd ha (hnn a (hnew a b h1))
    · rw [h1.1]; exact numAbove_object ha
  · obtain ⟨h1, h2⟩ := h.numFree a ha
    refine ⟨fun h3 => ?_, (hs.taken a).mpr (.inl h2)⟩
    rcases (hs.types a).mp h3 with h3 | h3
    · exact h1 h3
    · exact hnn a h3 ha

theorem HistInv.star {st E} (h : HistInv st E) (hi : BodyInv st) {t s} (ht : t ∈ st.types) :
    Star st.lang.HistR t s ↔ s = "object" ∨ Star (Below E) t s := by
  constructor
  · intro hs
    induction hs with
    | refl => exact .inr (.refl _)
    | step a b c hab _ ih =>
      rcases ih (hi.inv.histTypes _ _ hab ht) with hc | hc
      · exact .inl hc
      · rcases h.typeIn a b ht hab with h1 | rfl
        · exact .inr (.step _ _ _ h1 hc)
        · cases hc with
          | refl => exact .inl rfl
          | step _ d _ hd _ => exact absurd (h.typeOut _ _ hd) (hi.inv.objTop _)
  · rintro (rfl | hs)
    · exact hi.inv.top t ht
    · exact hs.mono h.typeOut

theorem HistInv.starNum {st E} (h : HistInv st E) (hi : BodyInv st) {t s} (ht : t ∈ numericSorts) :
    Star st.lang.HistR t s ↔ Star NumAbove t s := by
  have hclosed : ∀ a b, Star NumAbove a b → a ∈ numericSorts ∨ a = "object" → b ∈ numericSorts ∨ b = "object" := by
    intro a b hab
    induction hab with
    | refl => exact id
    | step a b c h1 _ ih =>
      intro _
      refine ih ?_
      simp only [NumAbove, List.mem_cons, Prod.mk.injEq, List.not_mem_nil, or_false] at h1
      rcases h1 with ⟨_, rfl⟩ | ⟨_, rfl⟩ | ⟨_, rfl⟩ | ⟨_, rfl⟩ <;> simp [numericSorts]
  constructor
  · intro hs
    have : ∀ a c, Star st.lang.HistR a c → a ∈ numericSorts ∨ a = "object" → Star NumAbove a c := by
      intro a c hac
      induction hac with
      | refl => intro _; exact .refl _
      | step a b c hab _ ih =>
        rintro (ha | rfl)
        · have h1 := h.numIn a b ha hab
          exact h1.trans (ih (hclosed _ _ h1 (.inl ha)))
        · exact absurd hab (hi.inv.objTop _)
    exact this t s hs (.inl ht)
  · exact Star.mono h.numOut

/-- What is known after some sections. -/
structure BodyDone (st : PInst) (ss : List YSect) : Prop where
  inv : BodyInv st
  hist : HistInv st (typeEntries ss)
  types : ∀ a, a ∈ st.types ↔ a = "object" ∨ ∃ s ∈ ss, a ∈ s.newTypes
  taken : ∀ a, Taken st a ↔ a = "object" ∨ a ∈ numericSorts ∨ ∃ s ∈ ss, a ∈ s.newNames
  funs : ∀ f sig, st.lang.funs f = some sig ↔ ∃ s ∈ ss, s.Declares f sig
  consts : ∀ c t, st.lang.consts c = some t ↔ ∃ s ∈ ss, s.DeclaresObj c t
  dom : ∀ c x, c ∈ st.lang.dom x ↔ ∃ pre s post, ss = pre ++ s :: post ∧ ∃ t, s.DeclaresObj c t ∧ (x = "object" ∨ Star (Below (typeEntries pre)) t x)

theorem typeEntries_append (l r : List YSect) : typeEntries (l ++ r) = typeEntries l ++ typeEntries r := by
  induction l with
  | nil => rfl
  | cons s l ih => cases s <;> simp [typeEntries, ih]

theorem done_init : BodyDone PInst.init [] := by
  refine ⟨bodyInv_init, histInv_init, by simp [PInst.init], fun a => ?_, fun f sig => ?_, fun c t => ?_, fun c x => ?_⟩
  · rw [pinit_taken]; simp [numericSorts]
  · have : PInst.init.lang.funs f = none := rfl
    simp [this]
  · have : PInst.init.lang.consts c = none := rfl
    simp [this]
  · rw [pinit_dom]; simp

theorem BodyDone.step {st st' ss s} (h : BodyDone st ss) (hs : SectStep st st' s) : BodyDone st' (ss ++ [s]) := by
  refine ⟨hs.inv, by rw [typeEntries_append]; exact h.hist.step h.inv hs, fun a => ?_, fun a => ?_, fun f sig => ?_, fun c t => ?_, fun c x => ?_⟩
  · rw [hs.types, h.types, or_assoc]; simp only [List.mem_append, List.mem_singleton, or_and_right, exists_or, exists_eq_left]
  · rw [hs.taken, h.taken, or_assoc, or_assoc]; simp only [List.mem_append, List.mem_singleton, or_and_right, exists_or, exists_eq_left]
  · rw [hs.funs, h.funs]; simp only [List.mem_append, List.mem_singleton, or_and_right, exists_or, exists_eq_left]
  · rw [hs.consts, h.consts]; simp only [List.mem_append, List.mem_singleton, or_and_right, exists_or, exists_eq_left]
  · rw [hs.dom, h.dom]
    constructor
    · rintro (⟨pre, u, post, rfl, h1⟩ | ⟨t, h1, h2, h3⟩)
      · exact ⟨pre, u, post ++ [s], by simp, h1⟩
      · exact ⟨ss, s, [], rfl, t, h2, (h.hist.star h.inv h1).mp h3⟩
    · rintro ⟨pre, u, post, he, t, h1, h2⟩
      rcases List.eq_nil_or_concat post with rfl | ⟨post', y, rfl⟩
      · have := List.append_inj' he rfl
        obtain ⟨rfl, e⟩ := this
        cases e
        have ht : t ∈ st.types := hs.objT c t h1
        exact .inr ⟨t, ht, h1, (h.hist.star h.inv ht).mpr h2⟩
      · rw [List.concat_eq_append, ← List.cons_append, ← List.append_assoc] at he
        have := List.append_inj' he rfl
        obtain ⟨rfl, _⟩ := this
        exact .inl ⟨pre, u, post', rfl, t, h1, h2⟩

theorem body_done {n} : ∀ {ss pre st st'}, BodyDone st pre → readBody n st ss = some (st', none) →
    BodyOK (· ∈ st.types) (Taken st) ss ∧ BodyDone st' (pre ++ ss) := by
  intro ss
  induction ss with
  | nil => intro pre st st' h hd; simp only [readBody] at hd; cases hd; exact ⟨trivial, by simpa using h⟩
  | cons s ss ih =>
    intro pre st st' h hd
    simp only [readBody] at hd
    split at hd
    · cases hd
    · cases hd
    · rename_i st1 h1
      obtain ⟨h2, h3⟩ := sect_step h.inv h1
      obtain ⟨h4, h5⟩ := ih (h.step h3) hd
      exact ⟨⟨h2, (bodyOK_congr ss h3.types h3.taken).mp h4⟩, by simpa using h5⟩

theorem body_returns : ∀ {ss st}, BodyInv st → BodyOK (· ∈ st.types) (Taken st) ss → ∃ N st', ∀ n, N ≤ n → readBody n st ss = some (st', none) := by
  intro ss
  induction ss with
  | nil => intro st _ _; exact ⟨0, st, by simp [readBody]⟩
  | cons s ss ih =>
    intro st h hok
    obtain ⟨N1, st1, h1⟩ := sect_returns h hok.1
    obtain ⟨_, h2⟩ := sect_step h (h1 N1 (Nat.le_refl _))
    obtain ⟨N2, st2, h3⟩ := ih h2.inv ((bodyOK_congr ss h2.types h2.taken).mpr hok.2)
    refine ⟨max N1 N2, st2, fun n hn => ?_⟩
    simp only [readBody, h1 n (by omega), h3 n (by omega)]

theorem le_sum_mem {l : List Nat} {a : Nat} (h : a ∈ l) : a ≤ l.sum := by
  induction l with
  | nil => cases h
  | cons b l ih =>
    rw [List.sum_cons]
    rcases List.mem_cons.mp h with rfl | h
    · omega
    · have := ih h; omega

theorem isSubtype_returns {L : Lang} (hi : HierInv L) (hrank : ∃ r : String → Nat, ∀ s p, p ∈ L.anc s → r p < r s) :
    ∃ M, ∀ n, M ≤ n → ∀ t s, ∃ x, isSubtype n L t s = some x := by
  obtain ⟨r, hr⟩ := hrank
  obtain ⟨N, hN⟩ := anc_bounded hi
  let f : String → Nat := fun t => ((L.anc t).map (fun o => (N + 1) ^ r o)).sum
  refine ⟨(L.hist.map fun p => f p.1).sum, fun n hn t s => ?_⟩
  have hle : f t ≤ n := by
    cases ha : L.anc t with
    | nil => simp [f, ha]
    | cons u us =>
      obtain ⟨b, h1, _⟩ := hi.ancHist t u (by simp [ha])
      refine Nat.le_trans ?_ hn
      have h2 : f t ∈ L.hist.map fun p => f p.1 := List.mem_map.mpr ⟨(t, b), h1, rfl⟩
      exact le_sum_mem h2
  obtain ⟨b, hb⟩ := connLoop_terminates r N hr hN s n (L.anc t) hle
  unfold isSubtype
  split
  · exact ⟨_, rfl⟩
  · split
    · exact ⟨_, rfl⟩
    · split
      · exact ⟨_, rfl⟩
      · rw [hb]; cases b <;> exact ⟨_, rfl⟩

theorem yLang_sub {st : PInst} (hi : HierInv st.lang) {n} (hn : ∀ t s, ∃ x, isSubtype n st.lang t s = some x) (t s : String) :
    (st.yLang n).base.sub t s = true ↔ Star st.lang.HistR t s := by
  obtain ⟨⟨b, L'⟩, hx⟩ := hn t s
  rw [← isSubtype_spec hi hx]
  simp [PInst.yLang, hx]

/-! ### C97 -/

theorem reqs_fold (keys : List ReqKey) : ∀ (acc : List Feature) (f : Feature),
    f ∈ keys.foldl (fun acc k => k.features.foldl (fun acc f => if f ∈ acc then acc else acc ++ [f]) acc) acc ↔
      f ∈ acc ∨ ∃ k ∈ keys, f ∈ k.features := by
  have h1 : ∀ (fs acc : List Feature) (f : Feature), f ∈ fs.foldl (fun acc f => if f ∈ acc then acc else acc ++ [f]) acc ↔ f ∈ acc ∨ f ∈ fs := by
    intro fs
    induction fs with
    | nil => simp
    | cons g fs ih =>
      intro acc f
      rw [List.foldl_cons, ih]
      split
      · rename_i hg
        constructor
        · rintro (h | h)
          · exact .inl h
          · exact .inr (by simp [h])
        · rintro (h | h)
          · exact .inl h
          · rcases List.mem_cons.mp h with rfl | h
            · exact .inl hg
            · exact .inr h
      · simp [or_assoc]
  induction keys with
  | nil => simp
  | cons k keys ih => intro acc f; rw [List.foldl_cons, ih, h1]; simp [or_assoc]

/-- The features a domain with these keys asks for, as the PDDL definition has it. -/
def keyFeatures : List (ReqKey × List Feature) := [(.strips, [.strips]), (.typing, [.typing]), (.negativePreconditions, [.negativePreconditions]),
  (.equality, [.equality]), (.fluents, [.numericFluents, .objectFluents]), (.numericFluents, [.numericFluents]),
  (.durativeActions, [.durativeActions]), (.derivedPredicates, [.derivedPredicates])]

/-- C97 (requirements): the requirements of a domain are accepted exactly when every key is one of the eight supported ones. -/
theorem C97_requirements (keys : List ReqKey) : (∃ req, readReqs [] keys = .ok req) ↔ ∀ k ∈ keys, k ∈ supportedKeys := by
  have hk : ∀ k : ReqKey, (∀ f ∈ k.features, f ∈ supportedFeatures) ↔ k ∈ supportedKeys := by intro k; cases k <;> decide
  simp only [readReqs]
  have h : ∀ l : List Feature, l.all (· ∈ supportedFeatures) = true ↔ ∀ f ∈ l, f ∈ supportedFeatures := by intro l; simp
  constructor
  · rintro ⟨req, hr⟩ k hkk
    split at hr
    · rename_i hall
      rw [h] at hall
      exact (hk k).mp fun f hf => hall f ((reqs_fold _ _ _).mpr (.inr ⟨k, by simpa using hkk, hf⟩))
    · cases hr
  · intro hall
    rw [if_pos]
    · exact ⟨_, rfl⟩
    · rw [h]
      intro f hf
      rcases (reqs_fold _ _ _).mp hf with hf | ⟨k, hkk, hf⟩
      · cases hf
      · exact (hk k).mpr (hall k (by simpa using hkk)) f hf

/-- C97 (requirements): the features that are recorded are those of the keys. -/
theorem C97_required {keys : List ReqKey} {req} (h : readReqs [] keys = .ok req) (f : Feature) :
    f ∈ req ↔ ∃ k fs, k ∈ keys ∧ (k, fs) ∈ keyFeatures ∧ f ∈ fs := by
  have hs := (C97_requirements keys).mp ⟨_, h⟩
  have hk : ∀ k ∈ supportedKeys, ∀ f, f ∈ k.features ↔ ∃ fs, (k, fs) ∈ keyFeatures ∧ f ∈ fs := by
    intro k hk
    simp only [supportedKeys, List.mem_cons, List.not_mem_nil, or_false] at hk
    rcases hk with rfl | rfl | rfl | rfl | rfl | rfl | rfl | rfl <;> simp [ReqKey.features, keyFeatures, or_comm]
  simp only [readReqs] at h
  split at h
  · cases h
    rw [reqs_fold]
    simp only [List.not_mem_nil, false_or, List.mem_reverse]
    constructor
    · rintro ⟨k, h1, h2⟩
      obtain ⟨fs, h3, h4⟩ := (hk k (hs k h1) f).mp h2
      exact ⟨k, fs, h1, h3, h4⟩
    · rintro ⟨k, fs, h1, h3, h4⟩
      exact ⟨k, h1, (hk k (hs k h1) f).mpr ⟨fs, h3, h4⟩⟩
  · cases h

example : ∃ req, readReqs [] [.strips, .typing, .fluents] = .ok req := (C97_requirements _).mpr (by decide)
example : ¬ ∃ req, readReqs [] [.typing, .adl] = .ok req := by rw [C97_requirements]; decide

/-- C97 (declarations, acceptance): the declarations of a domain are read without an exception exactly when its sections are
acceptable one after the other. At the start `object` is the only type, and the names of the numeric sorts are in use. -/
theorem C97_accepts (ss : List YSect) : (∃ n st, readBody n PInst.init ss = some (st, none)) ↔
    BodyOK (· = "object") (· ∈ ["object", "Real", "Integer", "Natural", "Bool"]) ss := by
  rw [← bodyOK_congr (k1 := (· ∈ PInst.init.types)) (t1 := Taken PInst.init) ss (by simp [PInst.init]) pinit_taken]
  constructor
  · rintro ⟨n, st, h⟩; exact (body_done done_init h).1
  · intro h
    obtain ⟨N, st, hN⟩ := body_returns bodyInv_init h
    exact ⟨N, st, hN N (Nat.le_refl _)⟩

theorem body_read {n ss st} (h : readBody n PInst.init ss = some (st, none)) : BodyDone st ss := by
  simpa using (body_done done_init h).2

/-- C97 (symbols): the language of a domain that was read contains the declared types and the numeric sorts, the declared
predicates, as functions with values in `Bool`, and functions, by default with values in `Integer`, with the sorts of their
parameters as they are written, the declared constants with their types, and nothing else. -/
theorem C97_symbols {n ss st} (h : readBody n PInst.init ss = some (st, none)) (m : Nat) (a : String) :
    ((st.yLang m).base.sym a = some .sort ↔ a = "object" ∨ a ∈ numericSorts ∨ ∃ s ∈ ss, a ∈ s.newTypes) ∧
    (∀ args cod, (st.yLang m).base.sym a = some (.fn args cod) ↔ ∃ s ∈ ss, s.Declares a (args ++ [cod])) ∧
    (∀ t, (st.yLang m).base.sym a = some (.const t) ↔ ∃ s ∈ ss, s.DeclaresObj a t) ∧
    (∀ args, (st.yLang m).base.sym a ≠ some (.pred args)) := by
  have hd := body_read h
  have hni := hd.inv.inv.names
  have hS : st.lang.index a = some (.sort a) ↔ a = "object" ∨ a ∈ numericSorts ∨ ∃ s ∈ ss, a ∈ s.newTypes := by
    rw [← hni.sort, hd.inv.sorts, hd.types, or_assoc, or_comm (a := ∃ _, _)]
  have hF : ∀ sig, st.lang.index a = some (.func a sig) ↔ ∃ s ∈ ss, s.Declares a sig := fun sig => by rw [← hni.func, hd.funs]
  have hC : ∀ t, st.lang.index a = some (.const a t) ↔ ∃ s ∈ ss, s.DeclaresObj a t := fun t => by rw [← hni.const, hd.consts]
  have hsig : ∀ sig, st.lang.index a = some (.func a sig) → sig = sig.dropLast ++ [sig.getLastD ""] := by
    intro sig hs
    obtain ⟨s, _, hs⟩ := (hF sig).mp hs
    cases s with
    | predicates ps => obtain ⟨p, _, _, rfl⟩ := hs; simp
    | functions fs => obtain ⟨p, _, _, rfl⟩ := hs; simp
    | _ => exact hs.elim
  have hP : ∀ args, st.lang.index a ≠ some (.pred a args) := by
    intro args hp
    have ht : Taken st a := by unfold Taken; rw [hp]; simp
    rcases (hd.taken a).mp ht with h1 | h1 | ⟨s, h1, h2⟩
    · have := hS.mpr (.inl h1); rw [hp] at this; cases this
    · have := hS.mpr (.inr (.inl h1)); rw [hp] at this; cases this
    · cases s with
      | types es => have := hS.mpr (.inr (.inr ⟨_, h1, h2⟩)); rw [hp] at this; cases this
      | constants es =>
        simp only [YSect.newNames, declaredNames, List.mem_flatMap] at h2
        obtain ⟨e, h3, h4⟩ := h2
        cases e with
        | group t cs => have := (hC t).mpr ⟨_, h1, cs, h3, h4⟩; rw [hp] at this; cases this
        | single b => simp at h4
      | predicates ps =>
        obtain ⟨p, h3, h4⟩ := List.mem_map.mp h2
        have := (hF (p.sorts ++ ["Bool"])).mpr ⟨_, h1, p, h3, h4, rfl⟩; rw [hp] at this; cases this
      | functions fs =>
        obtain ⟨p, h3, h4⟩ := List.mem_map.mp h2
        have := (hF _).mpr ⟨_, h1, p, h3, h4, rfl⟩; rw [hp] at this; cases this
  refine ⟨?_, fun args cod => ?_, fun t => ?_, fun args => ?_⟩
  · rw [← hS]
    simp only [PInst.yLang]
    cases hx : st.lang.index a with
    | none => simp
    | some o =>
      rcases hni.name a o hx with rfl | ⟨_, rfl⟩ | ⟨_, rfl⟩ | ⟨_, rfl⟩ <;> simp
  · rw [← hF]
    simp only [PInst.yLang]
    cases hx : st.lang.index a with
    | none => simp
    | some o =>
      rcases hni.name a o hx with rfl | ⟨_, rfl⟩ | ⟨sig, rfl⟩ | ⟨_, rfl⟩
      · simp
      · simp
      · have h1 := hsig sig hx
        simp only [Option.some.injEq, RSym.fn.injEq, LObj.func.injEq, true_and]
        constructor
        · rintro ⟨h2, h3⟩; rw [← h2, ← h3]; exact h1
        · rintro rfl; simp
      · simp
  · rw [← hC]
    simp only [PInst.yLang]
    cases hx : st.lang.index a with
    | none => simp
    | some o =>
      rcases hni.name a o hx with rfl | ⟨_, rfl⟩ | ⟨_, rfl⟩ | ⟨_, rfl⟩ <;> simp
  · simp only [PInst.yLang]
    cases hx : st.lang.index a with
    | none => simp
    | some o =>
      rcases hni.name a o hx with rfl | ⟨b, rfl⟩ | ⟨_, rfl⟩ | ⟨_, rfl⟩
      · simp
      · exact absurd hx (hP b)
      · simp
      · simp

/-- C97 (types): the types of the instance are `object` and the declared ones. -/
theorem C97_types {n ss st} (h : readBody n PInst.init ss = some (st, none)) (m : Nat) (a : String) :
    a ∈ (st.yLang m).types ↔ a = "object" ∨ ∃ s ∈ ss, a ∈ s.newTypes := (body_read h).types a

/-- C97 (subtypes): in a domain that was read the test for subtypes comes to an end, and its answer for a type is the closure of
what the sections of types say, with `object` on top; for a numeric sort it is the order of the numeric sorts. -/
theorem C97_subtypes {n ss st} (h : readBody n PInst.init ss = some (st, none)) : ∃ M, ∀ m, M ≤ m →
    (∀ a, (a = "object" ∨ ∃ s ∈ ss, a ∈ s.newTypes) → ∀ b, (st.yLang m).base.sub a b = true ↔ b = "object" ∨ Star (Below (typeEntries ss)) a b) ∧
    (∀ a ∈ numericSorts, ∀ b, (st.yLang m).base.sub a b = true ↔ Star NumAbove a b) := by
  have hd := body_read h
  obtain ⟨M, hM⟩ := isSubtype_returns hd.inv.inv.hier hd.inv.inv.anc_rank
  refine ⟨M, fun m hm => ⟨fun a ha b => ?_, fun a ha b => ?_⟩⟩
  · rw [yLang_sub hd.inv.inv.hier (hM m hm)]
    exact hd.hist.star hd.inv ((hd.types a).mpr ha)
  · rw [yLang_sub hd.inv.inv.hier (hM m hm)]
    exact hd.hist.starNum hd.inv ha

/-- C97 (objects): the domain of a sort contains the constants whose type was below it when they were declared. -/
theorem C97_objects {n ss st} (h : readBody n PInst.init ss = some (st, none)) (c x : String) :
    c ∈ st.lang.dom x ↔ ∃ pre s post, ss = pre ++ s :: post ∧ ∃ t, s.DeclaresObj c t ∧ (x = "object" ∨ Star (Below (typeEntries pre)) t x) :=
  (body_read h).dom c x

/-- C97 in full: the domain of a sort contains the constants whose type is below it. -/
def C97_objects_full : Prop := ∀ n ss st, readBody n PInst.init ss = some (st, none) → ∀ c x,
  c ∈ st.lang.dom x ↔ ∃ s ∈ ss, ∃ t, s.DeclaresObj c t ∧ (x = "object" ∨ Star (Below (typeEntries ss)) t x)

/-- C97, what holds: it is so if no section of types follows a section of constants. -/
theorem C97_objects_partial {n ss st} (h : readBody n PInst.init ss = some (st, none))
    (hord : ∀ pre es post, ss = pre ++ .constants es :: post → typeEntries post = []) (c x : String) :
    c ∈ st.lang.dom x ↔ ∃ s ∈ ss, ∃ t, s.DeclaresObj c t ∧ (x = "object" ∨ Star (Below (typeEntries ss)) t x) := by
  rw [C97_objects h]
  have hkey : ∀ pre s post t, ss = pre ++ s :: post → s.DeclaresObj c t → typeEntries ss = typeEntries pre := by
    intro pre s post t he hs
    cases s with
    | constants es =>
      rw [he, typeEntries_append]
      simp only [typeEntries, hord pre es post he, List.append_nil]
    | _ => exact hs.elim
  constructor
  · rintro ⟨pre, s, post, he, t, h1, h2⟩
    exact ⟨s, by simp [he], t, h1, by rw [hkey pre s post t he h1]; exact h2⟩
  · rintro ⟨s, hs, t, h1, h2⟩
    obtain ⟨pre, post, he⟩ := List.append_of_mem hs
    exact ⟨pre, s, post, he, t, h1, by rw [← hkey pre s post t he h1]; exact h2⟩

/-- Predicates for the examples. -/
def exPreds : List YSkel := [⟨"at", [.var "?x", .type "thing", .var "?l", .type "place"]⟩, ⟨"busy", [.var "?x"]⟩]

/-- Functions for the examples. -/
def exFuns : List YFunSkel := [⟨⟨"weight", [.var "?b", .type "box"]⟩, none⟩, ⟨⟨"dist", [.var "?a", .var "?b", .type "place"]⟩, some "number"⟩,
  ⟨⟨"home", [.var "?t", .type "truck"]⟩, some "place"⟩]

/-- Declarations for the examples. -/
def exSects : List YSect := [.types [.group "thing" ["box", "truck"], .single "place"], .constants [.group "place" ["depot"], .group "box" ["b1"]],
  .predicates exPreds, .functions exFuns]

theorem exSects_ok : ∃ n st, readBody n PInst.init exSects = some (st, none) := by
  rw [C97_accepts]
  simp [exSects, exPreds, exFuns, BodyOK, SectOK, SectionOK, EntryOK, AllTyped, declaredNames, YSect.newTypes, YSect.newNames, TypeEntry.names, YSkel.Typed,
    primitiveType, numericSorts]

example : ∃ n st, readBody n PInst.init exSects = some (st, none) ∧
    (st.yLang n).base.sym "dist" = some (.fn ["place", "place"] "Real") ∧ (st.yLang n).base.sym "busy" = some (.fn ["object"] "Bool") ∧
    (st.yLang n).base.sym "b1" = some (.const "box") ∧ "b1" ∈ st.lang.dom "thing" ∧ "depot" ∉ st.lang.dom "thing" := by
  obtain ⟨n, st, h⟩ := exSects_ok
  have hs := C97_symbols h n
  refine ⟨n, st, h, ((hs _).2.1 ["place", "place"] "Real").mpr ?_, ((hs _).2.1 ["object"] "Bool").mpr ?_, ((hs _).2.2.1 "box").mpr ?_, ?_, ?_⟩
  · exact ⟨.functions exFuns, by simp [exSects], exFuns[1], by simp [exFuns], rfl, rfl⟩
  · exact ⟨.predicates exPreds, by simp [exSects], exPreds[1], by simp [exPreds], rfl, rfl⟩
  · exact ⟨.constants [.group "place" ["depot"], .group "box" ["b1"]], by simp [exSects], ["b1"], by simp, by simp⟩
  · rw [C97_objects h]
    refine ⟨[.types [.group "thing" ["box", "truck"], .single "place"]], _, _, rfl, "box", ⟨["b1"], .tail _ (.head _), .head _⟩, .inr ?_⟩
    exact .single ⟨["box", "truck"], by simp [typeEntries], by simp⟩
  · rw [C97_objects_partial h]
    · rintro ⟨s, hs, t, ht, h1⟩
      simp only [exSects, List.mem_cons, List.not_mem_nil, or_false] at hs
      rcases hs with rfl | rfl | rfl | rfl
      · exact ht
      · obtain ⟨cs, h2, h3⟩ := ht
        simp only [List.mem_cons, TypeEntry.group.injEq, List.not_mem_nil, or_false] at h2
        rcases h2 with ⟨rfl, rfl⟩ | ⟨rfl, rfl⟩
        · rcases h1 with h1 | h1
          · exact absurd h1 (by decide)
          · rcases star_iff_plus.mp h1 with h1 | ⟨b, h1, _⟩
            · exact absurd h1 (by decide)
            · obtain ⟨l, h4, h5⟩ := h1
              simp only [exSects, typeEntries, List.append_nil, List.mem_cons, TypeEntry.group.injEq, reduceCtorEq, List.not_mem_nil, or_false] at h4
              rw [h4.2] at h5
              exact absurd h5 (by decide)
        · exact absurd h3 (by decide)
      · exact ht
      · exact ht
    · intro pre es post he
      rcases pre with _ | ⟨a, _ | ⟨b, _ | ⟨c, _ | ⟨d, pre⟩⟩⟩⟩ <;> simp only [exSects, List.nil_append, List.cons_append, List.cons.injEq, reduceCtorEq, false_and, and_false] at he
      · obtain ⟨_, _, rfl⟩ := he; rfl
      · obtain ⟨_, _, _, _, he⟩ := he; cases pre <;> cases he

/-- The code violates C97 in full: an object of a type that gets a supertype afterwards is not an object of the supertype, although
the test for subtypes succeeds. -/
theorem C97_objects_refuted : ¬ C97_objects_full := by
  intro hfull
  let ss : List YSect := [.types [.single "box"], .constants [.group "box" ["b1"]], .types [.group "thing" ["box"]]]
  have hok : ∃ n st, readBody n PInst.init ss = some (st, none) := by
    rw [C97_accepts]
    simp [ss, BodyOK, SectOK, SectionOK, EntryOK, AllTyped, declaredNames, YSect.newTypes, YSect.newNames, TypeEntry.names]
  obtain ⟨n, st, h⟩ := hok
  have h1 : "b1" ∈ st.lang.dom "thing" := (hfull n ss st h "b1" "thing").mpr
    ⟨.constants [.group "box" ["b1"]], by simp [ss], "box", ⟨["b1"], by simp, by simp⟩, .inr (.single ⟨["box"], by simp [ss, typeEntries], by simp⟩)⟩
  rw [C97_objects h] at h1
  obtain ⟨pre, s, post, he, t, h2, h3⟩ := h1
  simp only [ss] at he
  rcases pre with _ | ⟨a, _ | ⟨b, _ | ⟨c, pre⟩⟩⟩
  · cases he; exact h2
  · cases he
    obtain ⟨cs, h4, _⟩ := h2
    simp only [List.mem_singleton, TypeEntry.group.injEq] at h4
    obtain ⟨rfl, rfl⟩ := h4
    rcases h3 with h3 | h3
    · exact absurd h3 (by decide)
    · rcases star_iff_plus.mp h3 with h3 | ⟨b, h5, _⟩
      · exact absurd h3 (by decide)
      · obtain ⟨l, h6, _⟩ := h5
        simp [typeEntries] at h6
  · cases he; exact h2
  · cases pre <;> cases he

/-- C97 in full: the order of the sections does not matter. -/
def C97_order_full : Prop := ∀ ss ss' : List YSect, ss.Perm ss' → (∃ n st, readBody n PInst.init ss = some (st, none)) →
  ∃ n st, readBody n PInst.init ss' = some (st, none)

/-- The code violates it: a type must be declared before the predicates that use it. -/
theorem C97_order_refuted : ¬ C97_order_full := by
  intro hfull
  have h1 := hfull [.types [.single "box"], .predicates [⟨"big", [.var "?x", .type "box"]⟩]] [.predicates [⟨"big", [.var "?x", .type "box"]⟩], .types [.single "box"]]
    (List.Perm.swap _ _ _) ((C97_accepts _).mpr (by
      simp [BodyOK, SectOK, SectionOK, EntryOK, YSect.newTypes, YSect.newNames, TypeEntry.names, YSkel.Typed, primitiveType]))
  rw [C97_accepts] at h1
  simp [BodyOK, SectOK, YSkel.Typed, primitiveType] at h1

/-- C97: sections that do not mention each other's names may be exchanged; here, predicates and functions. -/
theorem C97_order_partial (pre post : List YSect) (ps : List YSkel) (fs : List YFunSkel) :
    (∃ n st, readBody n PInst.init (pre ++ .predicates ps :: .functions fs :: post) = some (st, none)) ↔
    ∃ n st, readBody n PInst.init (pre ++ .functions fs :: .predicates ps :: post) = some (st, none) := by
  simp only [C97_accepts]
  generalize (· = "object") = known
  generalize (· ∈ ["object", "Real", "Integer", "Natural", "Bool"]) = taken
  induction pre generalizing known taken with
  | cons s pre ih => simp only [List.cons_append, BodyOK]; exact and_congr_right fun _ => ih _ _
  | nil =>
    simp only [List.nil_append, BodyOK, SectOK, YSect.newTypes, YSect.newNames, List.not_mem_nil, or_false]
    have e : ∀ k, BodyOK k (fun a => (taken a ∨ a ∈ ps.map (·.name)) ∨ a ∈ fs.map (·.skel.name)) post ↔
        BodyOK k (fun a => (taken a ∨ a ∈ fs.map (·.skel.name)) ∨ a ∈ ps.map (·.name)) post := fun k =>
      bodyOK_congr post (fun _ => Iff.rfl) (fun a => by rw [or_assoc, or_assoc, or_comm (a := a ∈ _)])
    rw [e]
    have hc : (∀ f ∈ fs, ¬ (taken f.skel.name ∨ f.skel.name ∈ ps.map (·.name))) ∧ (∀ p ∈ ps, ¬ taken p.name) ↔
        (∀ p ∈ ps, ¬ (taken p.name ∨ p.name ∈ fs.map (·.skel.name))) ∧ ∀ f ∈ fs, ¬ taken f.skel.name := by
      constructor
      · rintro ⟨h1, h2⟩
        refine ⟨fun p hp => ?_, fun f hf h => h1 f hf (.inl h)⟩
        rintro (h | h)
        · exact h2 p hp h
        · obtain ⟨f, hf, e⟩ := List.mem_map.mp h
          exact h1 f hf (.inr (List.mem_map.mpr ⟨p, hp, e.symm⟩))
      · rintro ⟨h1, h2⟩
        refine ⟨fun f hf => ?_, fun p hp h => h1 p hp (.inl h)⟩
        rintro (h | h)
        · exact h2 f hf h
        · obtain ⟨p, hp, e⟩ := List.mem_map.mp h
          exact h1 p hp (.inr (List.mem_map.mpr ⟨f, hf, e.symm⟩))
    tauto

/-- C97: in a domain that was read, a parameter written with the word `object` has the declared type `Object`; a parameter
without a type has the sort `object`, another one. A parameter cannot be a number. -/
theorem C97_object_word {n ss st} (h : readBody n PInst.init ss = some (st, none)) {p : YSkel}
    (hp : (∃ ps, .predicates ps ∈ ss ∧ p ∈ ps) ∨ ∃ fs f, .functions fs ∈ ss ∧ f ∈ fs ∧ f.skel = p) :
    (VTok.type "object" ∈ p.params → ∃ s ∈ ss, "Object" ∈ s.newTypes) ∧ VTok.type "number" ∉ p.params := by
  have hd := body_read h
  have hty : ∀ w, VTok.type w ∈ p.params → primitiveType w ∈ st.types := by
    intro w hw
    have hall : ∀ (ss : List YSect) (k t : String → Prop), BodyOK k t ss → ((∃ ps, .predicates ps ∈ ss ∧ p ∈ ps) ∨ ∃ fs f, .functions fs ∈ ss ∧ f ∈ fs ∧ f.skel = p) →
        k (primitiveType w) ∨ ∃ s ∈ ss, primitiveType w ∈ s.newTypes := by
      intro ss
      induction ss with
      | nil => rintro k t - (⟨_, h, _⟩ | ⟨_, _, h, _⟩) <;> cases h
      | cons s ss ih =>
        rintro k t ⟨h1, h2⟩ hp
        have hrest : ((∃ ps, .predicates ps ∈ ss ∧ p ∈ ps) ∨ ∃ fs f, .functions fs ∈ ss ∧ f ∈ fs ∧ f.skel = p) → k (primitiveType w) ∨ ∃ s' ∈ s :: ss, primitiveType w ∈ s'.newTypes := by
          intro hp
          rcases ih _ _ h2 hp with (h | h) | ⟨s', h, h'⟩
          · exact .inl h
          · exact .inr ⟨s, by simp, h⟩
          · exact .inr ⟨s', by simp [h], h'⟩
        rcases hp with ⟨ps, h3, h4⟩ | ⟨fs, f, h3, h4, h5⟩
        · rcases List.mem_cons.mp h3 with rfl | h3
          · exact .inl (h1.1 p h4 w hw)
          · exact hrest (.inl ⟨ps, h3, h4⟩)
        · rcases List.mem_cons.mp h3 with rfl | h3
          · exact .inl ((h1.1 f h4).1 w (by rw [h5]; exact hw))
          · exact hrest (.inr ⟨fs, f, h3, h4, h5⟩)
    rcases hall ss _ _ ((C97_accepts ss).mp ⟨n, st, h⟩) hp with h1 | h1
    · exact (hd.types _).mpr (.inl h1)
    · exact (hd.types _).mpr (.inr h1)
  refine ⟨fun hw => ?_, fun hw => ?_⟩
  · rcases (hd.types _).mp (hty _ hw) with h1 | h1
    · exact absurd h1 (by decide)
    · exact h1
  · exact (hd.hist.numFree "Real" (by decide)).1 (hty _ hw)

/-- C97: a name has one use: a type, a constant, a predicate and a function cannot share it. -/
theorem C97_names {n pre s post st} (h : readBody n PInst.init (pre ++ s :: post) = some (st, none)) {a : String} (ha : a ∈ s.newNames)
    (hno : ∀ es, s ≠ .types es) : ∀ s' ∈ pre, a ∉ s'.newNames := by
  have hall : ∀ (pre : List YSect) (k t : String → Prop), BodyOK k t (pre ++ s :: post) → ¬ t a ∧ ∀ s' ∈ pre, a ∉ s'.newNames := by
    intro pre
    induction pre with
    | nil =>
      rintro k t ⟨h1, _⟩
      refine ⟨?_, by simp⟩
      cases s with
      | types es => exact absurd rfl (hno es)
      | constants es => exact h1.2.2 a ha
      | predicates ps => obtain ⟨p, hp, rfl⟩ := List.mem_map.mp ha; exact h1.2.2 p hp
      | functions fs => obtain ⟨p, hp, rfl⟩ := List.mem_map.mp ha; exact h1.2.2 p hp
    | cons u pre ih =>
      rintro k t ⟨_, h2⟩
      obtain ⟨h3, h4⟩ := ih _ _ h2
      refine ⟨fun ht => h3 (.inl ht), fun s' hs' => ?_⟩
      rcases List.mem_cons.mp hs' with rfl | hs'
      · exact fun hm => h3 (.inr hm)
      · exact h4 s' hs'
  exact (hall pre _ _ ((C97_accepts _).mp ⟨n, st, h⟩)).2

/-- C97: the language of a domain that was read is one for which C92 to C95 describe the conditions and actions, unless it
declares a symbol named like an arithmetic operator (which the lexer does not produce, C96). -/
theorem C97_standard {n ss st} (h : readBody n PInst.init ss = some (st, none)) (hops : ∀ op ∈ ["+", "-", "*", "/"], ∀ s ∈ ss, op ∉ s.newNames) (m : Nat) :
    YStd (st.yLang m) := by
  have hd := body_read h
  refine ⟨rfl, rfl, ?_, ?_, fun op hop => ?_, hd.inv.inv.objT⟩
  · simp [PInst.yLang, isSubtype, hd.inv.bool]
  · simp [PInst.yLang, isSubtype]
  · have h1 : ¬ Taken st op := by
      rw [hd.taken]
      rintro (h1 | h1 | ⟨s, h1, h2⟩)
      · subst h1; simp at hop
      · simp only [numericSorts, List.mem_cons, List.not_mem_nil, or_false] at h1 hop
        rcases hop with rfl | rfl | rfl | rfl <;> simp at h1
      · exact hops op hop s h1 h2
    have h2 : st.lang.index op = none := by simpa [Taken] using h1
    simp [PInst.yLang, h2]

example : ∃ n st, readBody n PInst.init exSects = some (st, none) ∧ YStd (st.yLang n) := by
  obtain ⟨n, st, h⟩ := exSects_ok
  exact ⟨n, st, h, C97_standard h (by simp [exSects, exPreds, exFuns, YSect.newNames, TypeEntry.names, declaredNames]) n⟩

/-- C97 (domains): a domain whose declarations are acceptable is read, from some number of steps on, with one and the same language `L` of
C97_symbols and C97_subtypes, and it is accepted exactly when its requirements are supported and every action, durative action and derived
predicate can be read alone in `L`. -/
theorem C97_domain (d : YDomain) (hb : BodyOK (· = "object") (· ∈ ["object", "Real", "Integer", "Natural", "Bool"]) d.body) :
    ∃ N st L, (∀ n, N ≤ n → readBody n PInst.init d.body = some (st, none) ∧ st.yLang n = L) ∧
      ∀ n, N ≤ n → ((∃ req i, readYDomain n d = some (.ok (req, st, i))) ↔ (∀ k ∈ d.reqs, k ∈ supportedKeys) ∧
        ∃ i, readStructs L (predDomains st (bodyPreds d.body)) d.structs [] ⟨[], [], []⟩ = .ok (i, [])) := by
  rw [← bodyOK_congr (k1 := (· ∈ PInst.init.types)) (t1 := Taken PInst.init) d.body (by simp [PInst.init]) pinit_taken] at hb
  obtain ⟨N, st, hN⟩ := body_returns bodyInv_init hb
  have hd := body_read (hN N (Nat.le_refl _))
  obtain ⟨M, hM⟩ := isSubtype_returns hd.inv.inv.hier hd.inv.inv.anc_rank
  have hL : ∀ n, M ≤ n → st.yLang n = st.yLang M := by
    intro n hn
    have hsub : (st.yLang n).base.sub = (st.yLang M).base.sub := by
      funext a b
      rw [Bool.eq_iff_iff, yLang_sub hd.inv.inv.hier (hM n hn), yLang_sub hd.inv.inv.hier (hM M (Nat.le_refl _))]
    unfold PInst.yLang at hsub ⊢
    simp only at hsub
    rw [hsub]
  refine ⟨max N M, st, st.yLang M, fun n hn => ⟨hN n (by omega), hL n (by omega)⟩, fun n hn => ?_⟩
  simp only [readYDomain, hN n (by omega), hL n (by omega)]
  rw [← C97_requirements]
  constructor
  · rintro ⟨req, i, h⟩
    split at h
    · cases h
    · rename_i req' hr
      split at h
      · cases h
      · rename_i i' sc hs
        obtain ⟨rfl, -⟩ := C95_sequence _ _ _ hs
        exact ⟨⟨_, hr⟩, _, hs⟩
  · rintro ⟨⟨req, hr⟩, i, hs⟩
    exact ⟨req, i, by simp [hr, hs]⟩

/-- A domain for the examples: `load` deletes two atoms. -/
def exYDomain : YDomain where
  name := "logistics"
  reqs := [.strips, .typing]
  body := exSects
  structs := [.action ⟨"load", [.var "?b", .type "box", .var "?l", .type "place"],
    some (.and [.lit (.pred "at" [.var "?b", .var "?l"]), .lit (.pred "busy" [.var "?b"])]),
    some [.eff (.del (.pred "at" [.var "?b", .var "?l"])), .eff (.del (.pred "busy" [.var "?b"]))]⟩]

/-- It is read. -/
example : ∃ n req st i, readYDomain n exYDomain = some (.ok (req, st, i)) := by
  obtain ⟨N, st, L, h1, h2⟩ := C97_domain exYDomain ((C97_accepts _).mp exSects_ok)
  obtain ⟨M, hM⟩ := C97_subtypes (h1 N (Nat.le_refl _)).1
  have hL : st.yLang (max N M) = L := (h1 _ (by omega)).2
  have hbody := (h1 N (Nat.le_refl _)).1
  have hstd : YStd L := hL ▸ C97_standard hbody (by simp [exYDomain, exSects, exPreds, exFuns, YSect.newNames, TypeEntry.names, declaredNames]) (max N M)
  have hat : L.base.sym "at" = some (.fn ["thing", "place"] "Bool") := hL ▸ ((C97_symbols hbody (max N M) "at").2.1 ["thing", "place"] "Bool").mpr
    ⟨.predicates exPreds, by simp [exYDomain, exSects], exPreds[0], by simp [exPreds], rfl, rfl⟩
  have hbusy : L.base.sym "busy" = some (.fn ["object"] "Bool") := hL ▸ ((C97_symbols hbody (max N M) "busy").2.1 ["object"] "Bool").mpr
    ⟨.predicates exPreds, by simp [exYDomain, exSects], exPreds[1], by simp [exPreds], rfl, rfl⟩
  have hsub := (hM (max N M) (by omega)).1
  rw [hL] at hsub
  have hbox : ∃ s ∈ exYDomain.body, "box" ∈ s.newTypes := ⟨_, by simp only [exYDomain, exSects]; exact .head _, by simp [YSect.newTypes, TypeEntry.names]⟩
  have hplace : ∃ s ∈ exYDomain.body, "place" ∈ s.newTypes := ⟨_, by simp only [exYDomain, exSects]; exact .head _, by simp [YSect.newTypes, TypeEntry.names]⟩
  have s1 : L.base.sub "box" "thing" = true := (hsub "box" (.inr hbox) "thing").mpr (.inr (.single ⟨["box", "truck"], by simp [exYDomain, exSects, typeEntries], by simp⟩))
  have s2 : L.base.sub "place" "place" = true := (hsub "place" (.inr hplace) "place").mpr (.inr (.refl _))
  have s3 : L.base.sub "box" "object" = true := (hsub "box" (.inr hbox) "object").mpr (.inl rfl)
  have hty : "box" ∈ L.types ∧ "place" ∈ L.types := by
    rw [← hL, C97_types hbody, C97_types hbody]
    exact ⟨.inr hbox, .inr hplace⟩
  obtain ⟨i, hi⟩ := C95_sequence_accepts (L := L) (preds := predDomains st (bodyPreds exYDomain.body)) exYDomain.structs ⟨[], [], []⟩ (by
    intro s hs
    simp only [exYDomain, List.mem_singleton] at hs
    subst hs
    refine C93_accepts_partial hstd _ ⟨?_, ?_, ?_, ?_⟩
    · simp [typedVars, nextType]
    · simp [primitiveType, hty]
    · simp [YGD.Legal, YGD.Legals, typedVars, nextType, primitiveType, YAtom.Legal, YTerm.typ, YTerm.typs, declare, typeSort, hat, hbusy, s1, s2, s3]
    · simp [YEff.Legal, typedVars, nextType, primitiveType, YTerm.typ, YTerm.typs, declare, typeSort, hat, hbusy, s1, s2, s3])
  obtain ⟨req, i, h3⟩ := (h2 (max N M) (by omega)).mpr ⟨by simp [exYDomain, supportedKeys], i, hi⟩
  exact ⟨max N M, req, st, i, h3⟩

/-- C97: the predicates that derived predicates may define are the declared predicates, with the sorts of their parameters. -/
theorem C97_predicates {n ss st} (h : readBody n PInst.init ss = some (st, none)) (p : String) (args : List String) :
    predDomains st (bodyPreds ss) p = some args ↔ ∃ ps q, .predicates ps ∈ ss ∧ q ∈ ps ∧ q.name = p ∧ q.sorts = args := by
  have hd := body_read h
  have hb : ∀ ss : List YSect, p ∈ bodyPreds ss ↔ ∃ ps q, .predicates ps ∈ ss ∧ q ∈ ps ∧ q.name = p := by
    intro ss
    induction ss with
    | nil => simp [bodyPreds]
    | cons s ss ih =>
      cases s with
      | predicates qs =>
        simp only [bodyPreds, List.mem_append, ih, List.mem_map]
        constructor
        · rintro (⟨q, h1, h2⟩ | ⟨ps, q, h1, h2, h3⟩)
          · exact ⟨qs, q, by simp, h1, h2⟩
          · exact ⟨ps, q, by simp [h1], h2, h3⟩
        · rintro ⟨ps, q, h1, h2, h3⟩
          simp only [List.mem_cons, YSect.predicates.injEq] at h1
          rcases h1 with rfl | h1
          · exact .inl ⟨q, h2, h3⟩
          · exact .inr ⟨ps, q, h1, h2, h3⟩
      | _ => simp only [bodyPreds, ih, List.mem_cons, reduceCtorEq, false_or]
  have hf : ∀ ps q, .predicates ps ∈ ss → q ∈ ps → st.lang.funs q.name = some (q.sorts ++ ["Bool"]) := fun ps q h1 h2 =>
    (hd.funs _ _).mpr ⟨_, h1, q, h2, rfl, rfl⟩
  unfold predDomains
  constructor
  · intro hx
    split at hx
    · rename_i hp
      obtain ⟨ps, q, h1, h2, rfl⟩ := (hb ss).mp hp
      rw [hf ps q h1 h2] at hx
      exact ⟨ps, q, h1, h2, rfl, by simpa using hx⟩
    · cases hx
  · rintro ⟨ps, q, h1, h2, rfl, rfl⟩
    rw [if_pos ((hb ss).mpr ⟨ps, q, h1, h2, rfl⟩), hf ps q h1 h2]
    simp

/-- C97: a problem is accepted after a domain only if it names that domain; without a domain it is always rejected. -/
theorem C97_domain_ref (read : Option String) (expected : String) : (domainRef read expected = .ok () ↔ read = some expected) ∧ domainRef none expected = .error .semantic := by
  constructor
  · unfold domainRef
    split
    · rename_i h; simp [h.symm]
    · rename_i h; simp only [reduceCtorEq, false_iff]; exact fun e => h e.symm
  · simp [domainRef]

end Tarski

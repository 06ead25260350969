import Verif.PddlDeclLemmas
import Verif.PddlMono
/-! Lemmas: the language between the declarations of the sorts and those of their bounds. -/
namespace Tarski

/-- The same sort with bounds that are at least as wide. -/
def SWider (d d' : SDecl) : Prop :=
  d'.name = d.name ∧ d'.parent = d.parent ∧
    ((d.bounds = none ∧ d'.bounds = none) ∨ ∃ l u l' u' : Int, d.bounds = some (l, u) ∧ d'.bounds = some (l', u') ∧ l' ≤ l ∧ u ≤ u')

/-- The same language with wider bounds and possibly more constants. -/
structure Wider (D D' : PDecls) : Prop where
  equality : D'.equality = D.equality
  arithmetic : D'.arithmetic = D.arithmetic
  special : D'.special = D.special
  sorts : List.Forall₂ SWider D.sorts D'.sorts
  preds : D'.preds = D.preds
  funs : D'.funs = D.funs
  consts : ∀ c ∈ D.consts, c ∈ D'.consts
  nodup : (D'.consts.map (·.1)).Nodup

theorem SWider.refl (d : SDecl) : SWider d d := by
  refine ⟨rfl, rfl, ?_⟩
  cases h : d.bounds with
  | none => exact .inl ⟨rfl, rfl⟩
  | some b => exact .inr ⟨b.1, b.2, b.1, b.2, rfl, rfl, Int.le_refl _, Int.le_refl _⟩

theorem swiders_refl : ∀ l : List SDecl, List.Forall₂ SWider l l
  | [] => .nil
  | d :: l => .cons (.refl d) (swiders_refl l)

theorem swider_widen {D : PDecls} {pre : List SDecl} {d : SDecl} (h : OkParent D pre d) : SWider d (widen d) := by
  refine ⟨rfl, rfl, ?_⟩
  rcases h with ⟨h, _⟩ | ⟨_, _, l, u, h, h1, h2⟩
  · exact .inl ⟨h, by simp [widen, h]⟩
  · exact .inr ⟨l, u, _, _, h, by simp only [widen, h, Option.map_some], h1, h2⟩

theorem swiders_widen {D : PDecls} (hD : OkDecls D) : ∀ (post pre : List SDecl), D.sorts = pre ++ post →
    List.Forall₂ SWider post (post.map widen)
  | [], _, _ => .nil
  | d :: post, pre, h => .cons (swider_widen (hD.parents pre d post h)) (swiders_widen hD post (pre ++ [d]) (by simp [h]))

section
variable {D D' : PDecls} (h : Wider D D')
include h

theorem Wider.numeric : D'.numeric = D.numeric := by simp [PDecls.numeric, h.arithmetic, h.special]

theorem Wider.all : List.Forall₂ SWider D.allSorts D'.allSorts := by
  simp only [PDecls.allSorts, h.numeric]
  exact List.rel_append (swiders_refl _) h.sorts

theorem Wider.sort (s : String) : (D.sort s = none ∧ D'.sort s = none) ∨
    ∃ d d', D.sort s = some d ∧ D'.sort s = some d' ∧ SWider d d' := by
  simp only [PDecls.sort]
  have := h.all
  generalize D.allSorts = l at this
  generalize D'.allSorts = l' at this
  clear h
  induction this with
  | nil => simp
  | @cons d d' l l' h1 _ ih =>
    simp only [List.find?_cons, h1.1]
    cases d.name == s with
    | true => exact .inr ⟨d, d', rfl, rfl, h1⟩
    | false => exact ih

theorem Wider.hasSort : D'.hasSort = D.hasSort := by
  funext s
  simp only [PDecls.hasSort]
  rcases h.sort s with ⟨h1, h2⟩ | ⟨d, d', h1, h2, _⟩ <;> simp [h1, h2]

theorem Wider.parent : (fun u => (D'.sort u).map SDecl.parent) = fun u => (D.sort u).map SDecl.parent := by
  funext s
  rcases h.sort s with ⟨h1, h2⟩ | ⟨d, d', h1, h2, h3⟩
  · simp [h1, h2]
  · simp [h1, h2, h3.2.1]

theorem Wider.isSub : D'.isSub = D.isSub := by
  funext s t
  simp only [PDecls.isSub, h.parent, h.all.length_eq]

theorem Wider.bounds (s : String) : (D.bounds s = none ∧ D'.bounds s = none) ∨
    ∃ l u l' u' : Int, D.bounds s = some (l, u) ∧ D'.bounds s = some (l', u') ∧ l' ≤ l ∧ u ≤ u' := by
  simp only [PDecls.bounds]
  rcases h.sort s with ⟨h1, h2⟩ | ⟨d, d', h1, h2, _, _, h3⟩
  · simp [h1, h2]
  · simpa [h1, h2] using h3

theorem Wider.boundsSome (s : String) : (D'.bounds s).isSome = (D.bounds s).isSome := by
  rcases h.bounds s with ⟨h1, h2⟩ | ⟨_, _, _, _, h1, h2, _⟩ <;> simp [h1, h2]

theorem Wider.real : D'.real = D.real := by
  funext s
  simp only [PDecls.real, h.boundsSome]
  rcases h.sort s with ⟨h1, h2⟩ | ⟨d, d', h1, h2, h3⟩
  · simp [h1, h2]
  · simp [h1, h2, h3.2.1]

theorem Wider.contains {s : String} {n : Name} (hc : D.contains s n = true) : D'.contains s n = true := by
  simp only [PDecls.contains] at hc ⊢
  rcases h.bounds s with ⟨h1, h2⟩ | ⟨l, u, l', u', h1, h2, h3, h4⟩
  · simp only [h1, h2, h.isSub, List.any_eq_true] at hc ⊢
    obtain ⟨c, hc1, hc2⟩ := hc
    exact ⟨c, h.consts c hc1, hc2⟩
  · simp only [h1, h2] at hc ⊢
    cases n with
    | int n =>
      simp only [decide_eq_true_eq] at hc ⊢
      omega
    | str _ => cases hc
    | pyNone => cases hc

theorem Wider.ext : RLang.Ext D.rlang D'.rlang where
  preds := by simp [PDecls.rlang, h.preds]
  funs := by simp [PDecls.rlang, h.funs]
  consts := by
    intro n s hn
    exact dlookup_of_mem h.nodup (h.consts _ (dlookup_some hn))
  hasSort := h.hasSort
  isSub := h.isSub
  castInt := by
    intro s n v hv
    simp only [PDecls.rlang, PDecls.castInt] at hv ⊢
    split at hv
    · rename_i hc
      rw [if_pos (h.contains hc)]; exact hv
    · cases hv
  equality := h.equality
  arithmetic := h.arithmetic
  special := h.special

theorem Wider.interval : D'.mlang.interval = D.mlang.interval := by
  funext s; exact h.boundsSome s

theorem Wider.psig (p : String) : D'.mlang.psig p = D.mlang.psig p := by
  simp [PDecls.mlang, RLang.toM, MLang.psig, PDecls.rlang, h.preds]

theorem Wider.fsig (f : String) : D'.mlang.fsig f = D.mlang.fsig f := by
  simp [PDecls.mlang, RLang.toM, MLang.fsig, PDecls.rlang, h.funs]

theorem Wider.holds (m : MState) (p : String) (pt : List Const) : m.holds D'.mlang p pt = m.holds D.mlang p pt := by
  simp [MState.holds, h.psig]

theorem Wider.value (m : MState) (f : String) (pt : List Const) : m.value D'.mlang f pt = m.value D.mlang f pt := by
  simp [MState.value, h.fsig]

theorem Wider.stateWF {m : MState} (hm : StateWF D.mlang m) : StateWF D'.mlang m where
  pkeys := hm.pkeys
  fkeys := hm.fkeys
  points := hm.points
  psigs := fun kv hkv => by obtain ⟨p, hp⟩ := hm.psigs kv hkv; exact ⟨p, hp.trans (h.psig p).symm⟩
  fsigs := fun kv hkv => by obtain ⟨p, hp⟩ := hm.fsigs kv hkv; exact ⟨p, hp.trans (h.fsig p).symm⟩

end

theorem isSub_refl (D : PDecls) (s : String) : D.isSub s s = true := by
  simp only [PDecls.isSub, subGo]
  simp

/-! ### Bounds -/

theorem setBounds_append {n : String} {b : Int × Int} : ∀ {pre post : List SDecl}, n ∉ pre.map SDecl.name →
    setBounds n b (pre ++ post) = pre ++ setBounds n b post
  | [], _, _ => rfl
  | d :: pre, post, h => by
    simp only [List.map_cons, List.mem_cons, not_or] at h
    simp only [List.cons_append, setBounds, if_neg (Ne.symm h.1), setBounds_append h.2]

theorem encodeText_int (b : Bool) (n : Int) : encodeText b (intText n) = .ok n := by
  have : (intText n).contains '.' = false := by
    simpa using dot_not_mem_int n
  simp [encodeText, dot_not_mem_int n, intVal_intText]

theorem bound_text {d : SDecl} (hd : PName d.name) (l u : Int) :
    TextOf ('(' :: d.name.toList ++ " - int[".toList ++ intText l ++ ['.', '.'] ++ intText u ++ [']', ')'])
      (.list [.tok (.name d.name), .tok .dash, .tok (.kw .kInt), .tok .lbrk, .tok (.num (intText l)), .tok .dots,
        .tok (.num (intText u)), .tok .rbrk]) := by
  have h1 := textsOf_spaced (.cons (textOf_pname hd) (.cons (textOf_tok lexesTo_dash (by simp) (by simp)) .nil))
  have h2 := textOf_paren (textsOf_sep h1 (textsOf_range l u) (sep := [' ']) (by simp) blank_sp)
  have e : " - int[".toList = [' ', '-', ' ', 'i', 'n', 't', '['] := rfl
  rw [e]
  simpa [joinWith, rangeText, List.append_assoc] using h2

/-- The declared sort, found by its name. -/
theorem sort_mid {E : PDecls} {pre post : List SDecl} {d : SDecl} (hs : E.sorts = pre ++ d :: post) (hd : PName d.name)
    (hn : d.name ∉ pre.map SDecl.name) : E.sort d.name = some d := by
  have h1 : ∀ (l : List SDecl), d.name ∉ l.map SDecl.name → l.find? (fun e => e.name == d.name) = none := by
    intro l hl
    rw [List.find?_eq_none]
    intro e he
    simp only [beq_iff_eq]
    intro h
    exact hl (List.mem_map.2 ⟨e, he, h⟩)
  have h2 : d.name ∉ (if E.numeric then builtinSorts else []).map SDecl.name := by
    split
    · exact pname_not_builtinSort hd
    · simp
  simp [PDecls.sort, PDecls.allSorts, hs, List.find?_append, h1 _ h2, h1 _ hn]

theorem bounds_go {D : PDecls} (hD : OkDecls D) : ∀ (post pre : List SDecl) (E : PDecls), D.sorts = pre ++ post →
    E.sorts = pre ++ post.map widen →
    ∃ xs, List.Forall₂ TextOf (post.filterMap printBound) xs ∧ readBounds E xs = .ok { E with sorts := D.sorts }
  | [], pre, E, hs, hE => ⟨[], .nil, by
      simp only [List.append_nil, List.map_nil] at hs hE
      simp [readBounds, hs, ← hE]⟩
  | d :: post, pre, E, hs, hE => by
    have hd := (hD.sorts d (by simp [hs])).1
    have hnd : (D.sorts.map (fun d => Name.str d.name)).Nodup := by
      have := hD.distinct
      rw [List.append_assoc, List.append_assoc] at this
      exact (List.nodup_append.1 this).1
    have hnot : d.name ∉ pre.map SDecl.name := by
      rw [hs, List.map_append, List.nodup_append] at hnd
      intro hm
      obtain ⟨e, he, h⟩ := List.mem_map.1 hm
      exact hnd.2.2 (Name.str e.name) (List.mem_map.2 ⟨e, he, rfl⟩) (Name.str d.name) (by simp) (by rw [h])
    rcases hD.parents pre d post hs with ⟨hb, _⟩ | ⟨hn, hp, l, u, hb, _⟩
    · have hw : widen d = d := by cases d; simp_all [widen]
      obtain ⟨xs, h1, h2⟩ := bounds_go hD post (pre ++ [d]) E (by simp [hs]) (by simp [hE, hw])
      refine ⟨xs, ?_, h2⟩
      have : printBound d = none := by simp [printBound, hb]
      simpa [this] using h1
    · obtain ⟨xs, h1, h2⟩ := bounds_go hD post (pre ++ [d]) { E with sorts := setBounds d.name (l, u) E.sorts } (by simp [hs])
        (by
          simp only [hE, setBounds_append hnot, List.map_cons, setBounds]
          cases d; simp_all [widen])
      have ht := bound_text hd l u
      have hpb : printBound d = some ('(' :: d.name.toList ++ " - int[".toList ++ intText l ++ ['.', '.'] ++ intText u ++ [']', ')']) := by
        simp [printBound, hb, hp]
      refine ⟨_ :: xs, by simpa only [List.filterMap_cons, hpb] using .cons ht h1, ?_⟩
      have hsrt := sort_mid (E := E) (d := widen d) (pre := pre) (post := post.map widen) (by simp [hE]) hd hnot
      have hwn : (widen d).name = d.name := rfl
      rw [hwn] at hsrt
      have hbd : E.bounds d.name = some (-(2 ^ 31 - 1), 2 ^ 31 - 1) := by
        simp only [PDecls.bounds, hsrt, Option.bind_some, widen, hb, Option.map_some]
      simp only [readBounds, readBound, isNumericTy, if_true, lowerS_pname hd, PDecls.hasSort, hsrt, Option.isSome_some, Bool.or_true,
        hbd, encodeText_int, h2]

theorem flatten_singles : ∀ l : List SX, (l.map (fun x => [x])).flatten = l
  | [] => rfl
  | x :: l => by simp only [List.map_cons, List.flatten_cons, flatten_singles l, List.cons_append, List.nil_append]

/-- The bounds of the sorts, written and read. -/
theorem bounds_read {D E : PDecls} (hD : OkDecls D) (hE : E.sorts = D.sorts.map widen) :
    ∃ xs, TextsOf (printBounds D) xs ∧ ∀ m rest, readMetas E m (xs ++ rest) = readMetas { E with sorts := D.sorts } m rest := by
  obtain ⟨xs, h1, h2⟩ := bounds_go hD D.sorts [] E (by simp) (by simp [hE])
  simp only [printBounds]
  generalize D.sorts.filterMap printBound = ts at h1
  cases h1 with
  | nil =>
    simp only [readBounds, Except.ok.injEq] at h2
    exact ⟨[], textsOf_nil, fun m rest => by simp [← h2]⟩
  | @cons t x ts xs h3 h4 =>
    have h5 : List.Forall₂ TextsOf ((t :: ts).map (indentBy 2)) ((x :: xs).map (fun x => [x])) := by
      have : List.Forall₂ TextOf (t :: ts) (x :: xs) := .cons h3 h4
      generalize t :: ts = us at this
      generalize x :: xs = ys at this
      induction this with
      | nil => exact .nil
      | cons h _ ih => exact .cons (textOf_single (textOf_indent 2 h)) ih
    have h6 := textsOf_join (sep := ['\n']) (by simp) blank_nl h5
    have h7 := textOf_paren (textsOf_sep (textOf_single (textOf_colon ['b','o','u','n','d','s'] .bounds (by decide) (by decide))) h6
      (sep := ['\n']) (by simp) blank_nl)
    have e : "(:bounds\n".toList = ['(', ':', 'b','o','u','n','d','s', '\n'] := rfl
    have e2 := flatten_singles (x :: xs)
    rw [e2] at h7
    refine ⟨[.list (.tok (.ckw .bounds) :: x :: xs)], textOf_single (by rw [e]; simpa [List.append_assoc] using h7), fun m rest => ?_⟩
    simp [readMetas, secOf, h2]

end Tarski

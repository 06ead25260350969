import Mathlib.Data.List.Nodup
import Verif.PddlInitSpec
import Verif.PddlReadLemmas
import Verif.PddlEffLemmas
import Verif.Props.Model
/-! Lemmas: initial states through the PDDL writer and reader. -/
namespace Tarski

theorem lexesTo_frac {c : Char} {w : Text} (hc : isDig c = true) (hw : ∀ d ∈ w, isDig d = true) :
    LexesTo (c :: w ++ ['.', '0']) [.num (c :: w ++ ['.', '0'])] := by
  intro rest us hd h
  have h1 : lexGo (.frac (c :: w ++ ['.', '0'])) rest = .ok ([.num (c :: w ++ ['.', '0'])] ++ us) := by
    apply lexGo_flush (by rfl) _ hd h
    intro d hd'
    simp [LexSt.extend, delim_not_dig hd']
  have h2 := lexGo_num w [c] hw ('.' :: '0' :: rest)
  have e1 : isDig '.' = false := by decide
  have e2 : isDig '0' = true := by decide
  simp only [List.singleton_append] at h2
  have h3 : lexGo (.num (c :: w)) ('.' :: '0' :: rest) = lexGo (.frac (c :: w ++ ['.', '0'])) rest := by
    simp only [lexGo, lexStep, LexSt.extend, e1, e2, if_true, Bool.false_eq_true, if_false, List.nil_append]
    cases lexGo (.frac (c :: w ++ ['.', '0'])) rest <;> rfl
  rw [h3, h1] at h2
  simp only [List.cons_append, List.append_assoc, List.nil_append, lexGo, lexStep, LexSt.extend, LexSt.flush,
    lexStart_dig hc] at h2 ⊢
  rw [h2]

theorem lexesTo_negFrac {c : Char} {w : Text} (hc : isDig c = true) (hw : ∀ d ∈ w, isDig d = true) :
    LexesTo ('-' :: c :: w ++ ['.', '0']) [.num ('-' :: c :: w ++ ['.', '0'])] := by
  intro rest us hd h
  have h1 : lexGo (.frac ('-' :: c :: w ++ ['.', '0'])) rest = .ok ([.num ('-' :: c :: w ++ ['.', '0'])] ++ us) := by
    apply lexGo_flush (by rfl) _ hd h
    intro d hd'
    simp [LexSt.extend, delim_not_dig hd']
  have h2 := lexGo_num w ['-', c] hw ('.' :: '0' :: rest)
  have e1 : isDig '.' = false := by decide
  have e2 : isDig '0' = true := by decide
  have h5 : lexStep .idle '-' = .ok ([], .minus) := by decide
  have h4 : lexStep .minus c = .ok ([], .num ['-', c]) := by simp [lexStep, LexSt.extend, hc]
  simp only [List.cons_append, List.nil_append] at h2
  have h3 : lexGo (.num ('-' :: c :: w)) ('.' :: '0' :: rest) = lexGo (.frac ('-' :: c :: w ++ ['.', '0'])) rest := by
    simp only [lexGo, lexStep, LexSt.extend, e1, e2, if_true, Bool.false_eq_true, if_false, List.nil_append]
    cases lexGo (.frac ('-' :: c :: w ++ ['.', '0'])) rest <;> rfl
  rw [h3, h1] at h2
  simp only [List.cons_append, List.append_assoc, List.nil_append] at h2 ⊢
  simp [lexGo, h5, h4, h2]

theorem textOf_whole (n : Int) : TextOf (intText n ++ ['.', '0']) (.tok (.num (intText n ++ ['.', '0']))) := by
  refine textOf_tok ?_ (by simp) (by simp)
  cases n with
  | ofNat n =>
    have h := digits_dig n
    simp only [intText]
    cases hd : Nat.toDigits 10 n with
    | nil => exact absurd hd Nat.toDigits_ne_nil
    | cons c w => rw [hd] at h; exact lexesTo_frac (h c (by simp)) (fun d hd => h d (by simp [hd]))
  | negSucc n =>
    have h := digits_dig (n + 1)
    simp only [intText]
    cases hd : Nat.toDigits 10 (n + 1) with
    | nil => exact absurd hd Nat.toDigits_ne_nil
    | cons c w => rw [hd] at h; exact lexesTo_negFrac (h c (by simp)) (fun d hd => h d (by simp [hd]))

theorem takeWhile_int (n : Int) : (intText n ++ ['.', '0']).takeWhile (· != '.') = intText n := by
  rw [List.takeWhile_append_of_pos]
  · simp
  · intro c hc
    simp only [bne_iff_ne, ne_eq]
    rintro rfl
    exact dot_not_mem_int n hc

theorem dropWhile_int (n : Int) : (intText n ++ ['.', '0']).dropWhile (· != '.') = ['.', '0'] := by
  rw [List.dropWhile_append_of_pos]
  · simp
  · intro c hc
    simp only [bne_iff_ne, ne_eq]
    rintro rfl
    exact dot_not_mem_int n hc

section
variable {M : MLang} {L : RLang} {real : String → Bool}

/-- A constant, written and read at a position of sort `s`. -/
theorem con_read {s : String} {c : Const} (h : ConOk M L s c) :
    ∃ x rc, TextOf (printConst real c.name c.sort) x ∧ readCon L x = .ok rc ∧
      castElement M L real rc s = .ok (.const c) ∧ (c.sort = s → toConstant M L real rc s = .ok (.const c)) := by
  obtain ⟨nm, srt⟩ := c
  rcases h with ⟨n, h1, h2, h3⟩ | ⟨n, h1, h2, h3, h4⟩
  · simp only at h1 h3
    subst h1
    refine ⟨_, .sym ⟨.str n, srt⟩, textOf_pname h2, ?_, rfl, ?_⟩
    · simp [readCon, lowerS_pname h2, h3]
    · intro hs
      simp only at hs
      simp [toConstant, hs]
  · simp only at h1 h2
    subst h1
    subst h2
    cases hr : real srt with
    | false =>
      have hd := dot_not_mem_int n
      refine ⟨_, .num (intText n), by simpa [printConst, hr] using textOf_int n, rfl, ?_, fun _ => ?_⟩
      · simp [castElement, castText, h3, hd, intVal_intText, h4]
      · simp [toConstant, castText, h3, hd, intVal_intText, h4]
    | true =>
      refine ⟨_, .num (intText n ++ ['.', '0']), by simpa [printConst, hr] using textOf_whole n, rfl, ?_, fun _ => ?_⟩
      · simp [castElement, castText, h3, hr, takeWhile_int, dropWhile_int, intVal_intText, h4]
      · simp [toConstant, castText, h3, hr, takeWhile_int, dropWhile_int, intVal_intText, h4]

/-- The arguments of a predicate. -/
theorem ppoint_read {pt : List Const} {ss : List String} (h : List.Forall₂ (fun c s => ConOk M L s c ∧ L.isSub c.sort s = true) pt ss) :
    ∃ xs rcs, List.Forall₂ TextOf (pt.map (fun c => printConst real c.name c.sort)) xs ∧ readCons L xs = .ok rcs ∧
      rcs.length = ss.length ∧ castElements M L real rcs ss = .ok (pt.map .const) := by
  induction h with
  | nil => exact ⟨[], [], .nil, rfl, rfl, rfl⟩
  | cons hc _ ih =>
    obtain ⟨x, rc, h1, h2, h3, _⟩ := con_read (real := real) hc.1
    obtain ⟨xs, rcs, g1, g2, g3, g4⟩ := ih
    exact ⟨x :: xs, rc :: rcs, .cons h1 g1, by simp [readCons, h2, g2], by simp [g3], by simp [castElements, h3, g4]⟩

/-- The arguments of a function. -/
theorem fpoint_read {pt : List Const} {ss : List String} (h : List.Forall₂ (fun c s => ConOk M L s c ∧ c.sort = s) pt ss) :
    ∃ xs rcs, List.Forall₂ TextOf (pt.map (fun c => printConst real c.name c.sort)) xs ∧ readCons L xs = .ok rcs ∧
      rcs.length = ss.length ∧ toConstants M L real rcs ss = .ok (pt.map .const) := by
  induction h with
  | nil => exact ⟨[], [], .nil, rfl, rfl, rfl⟩
  | cons hc _ ih =>
    obtain ⟨x, rc, h1, h2, _, h3⟩ := con_read (real := real) hc.1
    obtain ⟨xs, rcs, g1, g2, g3, g4⟩ := ih
    exact ⟨x :: xs, rc :: rcs, .cons h1 g1, by simp [readCons, h2, g2], by simp [g3],
      by simp [toConstants, h3 hc.2, g4]⟩

theorem initPred_read {p : String} {pt : List Const} (h : AtomExpressible M L p pt) :
    ∃ x, TextOf (printInitPred real p pt) x ∧ initOp M L real x = .ok (some (.add (.user p) (pt.map .const))) := by
  obtain ⟨hp, ss, hs, h⟩ := h
  obtain ⟨xs, rcs, g1, g2, g3, g4⟩ := ppoint_read (real := real) h
  refine ⟨_, textOf_call (textOf_pname hp) g1, ?_⟩
  simp [initOp, initAdd, lowerS_pname hp, hs, g2, g3, g4]

theorem initFun_read {f : String} {pt : List Const} {v : Const} (h : ValueExpressible M L f pt v) :
    ∃ x, TextOf (printInitFun real f pt v) x ∧
      initOp M L real x = .ok (some (.set f false (pt.map .const) (.const v))) := by
  obtain ⟨hp, ss, s, hs, h, hv, _⟩ := h
  obtain ⟨xs, rcs, g1, g2, g3, g4⟩ := fpoint_read (real := real) h
  obtain ⟨y, rv, k1, k2, k3, _⟩ := con_read (real := real) hv
  have e := textOf_call2 (textOf_tok (lexesTo_cmp .eq (by simp)) (by simp) (by simp)) (textOf_call (textOf_pname hp) g1) k1
  refine ⟨_, by simpa [printInitFun, printPoint, joinWith, Cmp.text] using e, ?_⟩
  simp [initOp, initSet, lowerS_pname hp, hs, g2, g3, g4, k2, k3]

end

theorem textsOf_lines2 {l : List Text} {xs : List SX} (h : List.Forall₂ TextOf l xs) : TextsOf (lines2 l) xs := by
  have : List.Forall₂ TextsOf l (xs.map (fun x => [x])) := by
    induction h with
    | nil => exact .nil
    | cons h1 _ ih => exact .cons (textOf_single h1) ih
  have h2 := textsOf_join (sep := '\n' :: List.replicate 8 ' ') (by simp) (by decide) this
  have h3 : (xs.map (fun x => [x])).flatten = xs := by
    clear h this h2
    induction xs with
    | nil => rfl
    | cons x xs ih => simp [ih]
  rwa [h3] at h2

theorem initPointDenotes_consts {M : MLang} {pt : List Const} {ss : List String}
    (h : List.Forall₂ (fun c s => M.isSub c.sort s = true) pt ss) : PointDenotes M (pt.map .const) ss pt := by
  induction h with
  | nil => exact .nil
  | cons h _ ih => exact .cons (.const h) ih

theorem initPointDenotes_consts_eq {M : MLang} {pt qt : List Const} {ss : List String}
    (h : PointDenotes M (pt.map .const) ss qt) : qt = pt := by
  induction pt generalizing ss qt with
  | nil => cases h; rfl
  | cons c pt ih =>
    cases h with
    | cons h1 h2 => cases h1; rw [ih h2]

/-- The calls made by the elements. -/
theorem readInitGo_run {M : MLang} {L : RLang} {real : String → Bool} : ∀ {xs : List SX} {ops : List MOp},
    List.Forall₂ (fun x o => initOp M L real x = .ok (some o)) xs ops →
    (∀ o ∈ ops, ∀ m : MState, (m.step M o).2 = none) →
    ∀ m : MState, readInitGo M L real m xs = .ok (m.run M ops)
  | _, _, .nil, _, m => rfl
  | _, _, .cons (a := x) (b := o) (l₁ := xs) (l₂ := ops) h hs, ho, m => by
    have h1 := ho o (by simp) m
    have h2 := readInitGo_run hs (fun o' ho' => ho o' (by simp [ho'])) (m.step M o).1
    simp only [readInitGo, h]
    cases he : m.step M o with
    | mk m' e =>
      rw [he] at h1 h2
      simp only at h1
      subst h1
      simpa [MState.run, he] using h2

/-- The assignments and the atoms of a state, in the order in which they are written. -/
def MState.values (m : MState) : List (List String × List Const × Const) :=
  (m.fns.map (fun kv => kv.2.map (fun pv => (kv.1, pv.1, pv.2)))).flatten
def MState.facts (m : MState) : List (List String × List Const) :=
  (m.preds.map (fun kv => kv.2.map (fun pt => (kv.1, pt)))).flatten

def setCall (e : List String × List Const × Const) : MOp := .set (e.1.headD "") false (e.2.1.map .const) (.const e.2.2)
def addCall (e : List String × List Const) : MOp := .add (.user (e.1.headD "")) (e.2.map .const)

theorem initTexts_eq (real : String → Bool) (m : MState) : initTexts real m =
    m.values.map (fun e => printInitFun real (e.1.headD "") e.2.1 e.2.2) ++
    m.facts.map (fun e => printInitPred real (e.1.headD "") e.2) := by
  simp only [initTexts, MState.values, MState.facts, List.map_flatten, List.map_map, Function.comp_def]

theorem dlookup_of_mem {α β} [DecidableEq α] {d : List (α × β)} (hn : (d.map (·.1)).Nodup) {a : α} {b : β}
    (h : (a, b) ∈ d) : dlookup d a = some b := by
  induction d with
  | nil => cases h
  | cons kv d ih =>
    obtain ⟨k, v⟩ := kv
    simp only [List.map_cons, List.nodup_cons] at hn
    rcases List.mem_cons.1 h with h | h
    · cases h; simp [dlookup]
    · have : k ≠ a := by
        rintro rfl
        exact hn.1 (List.mem_map.2 ⟨_, h, rfl⟩)
      simp [dlookup, this, ih hn.2 h]

theorem mem_values {m : MState} {k : List String} {pt : List Const} {c : Const} :
    (k, pt, c) ∈ m.values ↔ ∃ d, (k, d) ∈ m.fns ∧ (pt, c) ∈ d := by
  simp only [MState.values, List.mem_flatten, List.mem_map]
  constructor
  · rintro ⟨l, ⟨⟨k', d⟩, h1, rfl⟩, h2⟩
    simp only [List.mem_map] at h2
    obtain ⟨⟨a, b⟩, h2, h3⟩ := h2
    cases h3
    exact ⟨d, h1, h2⟩
  · rintro ⟨d, h1, h2⟩
    exact ⟨_, ⟨⟨k, d⟩, h1, rfl⟩, List.mem_map.2 ⟨⟨pt, c⟩, h2, rfl⟩⟩

theorem mem_facts {m : MState} {k : List String} {pt : List Const} :
    (k, pt) ∈ m.facts ↔ ∃ d, (k, d) ∈ m.preds ∧ pt ∈ d := by
  simp only [MState.facts, List.mem_flatten, List.mem_map]
  constructor
  · rintro ⟨l, ⟨⟨k', d⟩, h1, rfl⟩, h2⟩
    simp only [List.mem_map] at h2
    obtain ⟨a, h2, h3⟩ := h2
    cases h3
    exact ⟨d, h1, h2⟩
  · rintro ⟨d, h1, h2⟩
    exact ⟨_, ⟨⟨k, d⟩, h1, rfl⟩, List.mem_map.2 ⟨pt, h2, rfl⟩⟩

theorem values_spec {M : MLang} {m : MState} (h : StateWF M m) {f : String} {pt : List Const} {c : Const} :
    m.value M f pt = .ok c ↔ (M.fsig f, pt, c) ∈ m.values := by
  rw [value_iff, mem_values]
  constructor
  · rintro ⟨d, h1, h2⟩
    exact ⟨d, dlookup_some h1, dlookup_some h2⟩
  · rintro ⟨d, h1, h2⟩
    exact ⟨d, dlookup_of_mem h.fkeys h1, dlookup_of_mem (h.points _ h1) h2⟩

theorem facts_spec {M : MLang} {m : MState} (h : StateWF M m) {p : String} {pt : List Const} :
    m.holds M p pt = true ↔ (M.psig p, pt) ∈ m.facts := by
  rw [holds_iff, mem_facts]
  constructor
  · rintro ⟨d, h1, h2⟩
    exact ⟨d, dlookup_some h1, h2⟩
  · rintro ⟨d, h1, h2⟩
    exact ⟨d, dlookup_of_mem h.pkeys h1, h2⟩

/-- The points that get a value are written once. -/
theorem values_nodup {M : MLang} {m : MState} (h : StateWF M m) : (m.values.map (fun e => (e.1, e.2.1))).Nodup := by
  have hf := h.fkeys
  have hp := h.points
  clear h
  simp only [MState.values]
  generalize m.fns = fns at *
  induction fns with
  | nil => simp
  | cons kv fns ih =>
    simp only [List.map_cons, List.nodup_cons] at hf
    simp only [List.map_cons, List.flatten_cons, List.map_append]
    refine List.Nodup.append ?_ (ih hf.2 (fun kv' h' => hp kv' (by simp [h']))) ?_
    · have := hp kv (by simp)
      rw [List.map_map]
      have e : (fun e : List String × List Const × Const => (e.1, e.2.1)) ∘ (fun pv : List Const × Const => (kv.1, pv.1, pv.2)) =
          (fun a => (kv.1, a)) ∘ (·.1) := rfl
      rw [e, ← List.map_map]
      exact this.map (fun a b hab => (Prod.mk.inj hab).2)
    · intro x hx hy
      simp only [List.mem_map] at hx hy
      obtain ⟨e, ⟨pv, _, rfl⟩, rfl⟩ := hx
      obtain ⟨e', he', heq⟩ := hy
      simp only [List.mem_flatten, List.mem_map] at he'
      obtain ⟨l, ⟨kv', hkv', rfl⟩, he'⟩ := he'
      simp only [List.mem_map] at he'
      obtain ⟨pv', _, rfl⟩ := he'
      have : kv'.1 = kv.1 := (Prod.mk.inj heq).1
      exact hf.1 (List.mem_map.2 ⟨kv', hkv', this⟩)

end Tarski

import Mathlib.Tactic.Common
import Mathlib.Data.List.Forall2
import Verif.SasWriter
import Verif.Props.Containers
import Verif.PddlReadLemmas
import Verif.Props.Sas
/-! C72: the file written for Fast Downward. -/
namespace Tarski

/-! ### Specification: the layout of the file -/

/-- What a file says: the state variables with their values, the operators with their transitions (variable, old value, new
value, all by position), the initial values and the goal values. -/
structure FdDoc where
  vars : List (String × List String)
  ops : List (String × List (Nat × Nat × Nat))
  init : List (Nat × Nat)
  goal : List (Nat × Nat)

/-- A list of lines, where no lines leave a blank line. -/
def fdBlock (l : List String) : List String := if l = [] then [""] else l

/-- "i j" -/
def fdPair (p : Nat × Nat) : String := toString p.1 ++ " " ++ toString p.2

/-- "0  i j" -/
def fdEff (p : Nat × Nat) : String := "0  " ++ toString p.1 ++ " " ++ toString p.2

/-- The lines for a state variable. -/
def fdVarLines (v : String × List String) : List String :=
  ["begin_variable", v.1, "-1", toString v.2.length] ++ fdBlock v.2 ++ ["end_variable"]

/-- The lines for an operator. -/
def fdOpLines (o : String × List (Nat × Nat × Nat)) : List String :=
  ["begin_operator", o.1, toString o.2.length] ++ fdBlock (o.2.map fun x => fdPair (x.1, x.2.1)) ++
  [toString o.2.length] ++ fdBlock (o.2.map fun x => fdEff (x.1, x.2.2)) ++ ["1", "end_operator"]

/-- The lines of the initial state. -/
def fdInitLines (d : FdDoc) : List String :=
  ["begin_initial_state", toString d.vars.length] ++ fdBlock (d.init.map fdPair) ++ ["end_initial_state"]

/-- The lines of the goal. -/
def fdGoalLines (d : FdDoc) : List String := ["begin_goal"] ++ fdBlock (d.goal.map fdPair) ++ ["end_goal"]

/-- The lines of the file. -/
def fdLines (d : FdDoc) : List String :=
  ["begin_version", "4", "end_version", "begin_metric", "1", "end_metric", toString d.vars.length] ++
  fdBlock (d.vars.flatMap fdVarLines) ++ ["0", "begin_axiom_defaults", "0", "end_axiom_defaults", "0", toString d.ops.length] ++
  d.ops.flatMap fdOpLines ++ fdInitLines d ++ fdGoalLines d

/-- The text of a file: every line is ended by a newline. -/
def fdText (d : FdDoc) : String := String.join ((fdLines d).map (· ++ "\n"))

/-- Position `i` of the file's variables is the state variable `x`, and position `j` of its values is `v`. -/
def RefersAt (str : Term → String) (t : SasTask) (d : FdDoc) (p : Nat × Nat) (x v : Term) : Prop :=
  t.stateVars.getObject p.1 = .ok x ∧ (∃ dom, dlookup t.domains x = some dom ∧ dom.getObject p.2 = .ok v) ∧
  ∃ vals, d.vars[p.1]? = some (str x, vals) ∧ vals[p.2]? = some (str v)

/-- The file describes the task. -/
structure Describe (str : Term → String) (t : SasTask) (d : FdDoc) : Prop where
  /-- one entry for each state variable, with all its values -/
  vars : List.Forall₂ (fun x v => v.1 = str x ∧ ∃ dom, dlookup t.domains x = some dom ∧ v.2 = dom.objects.map str) t.stateVars.objects d.vars
  /-- one operator for each action, with its transitions -/
  ops : List.Forall₂ (fun a o => o.1 = a.name ++ "(" ++ String.intercalate "," (a.args.map (·.name.render)) ++ ")" ∧
    List.Forall₂ (fun x p => RefersAt str t d (p.1, p.2.1) x.1 x.2.1 ∧ RefersAt str t d (p.1, p.2.2) x.1 x.2.2) a.trans o.2) t.actions d.ops
  init : List.Forall₂ (fun x p => RefersAt str t d p x.1 x.2) t.initial d.init
  goal : List.Forall₂ (fun x p => RefersAt str t d p x.1 x.2) t.goal d.goal

/-- The state variables and the domains are indexes that were filled by `add`. -/
structure SasTask.Indexed (t : SasTask) : Prop where
  vars : ∃ os, t.stateVars = SymIndex.empty.addAll os
  doms : ∀ x d, dlookup t.domains x = some d → ∃ os, d = SymIndex.empty.addAll os

/-! ### Lemmas on texts -/

theorem strJoin_cons {sep x : String} {l : List String} (h : l ≠ []) : strJoin sep (x :: l) = x ++ sep ++ strJoin sep l := by
  cases l with
  | nil => exact absurd rfl h
  | cons y l => rfl

theorem strJoin_append {sep : String} : ∀ {l l' : List String}, l ≠ [] → l' ≠ [] →
    strJoin sep (l ++ l') = strJoin sep l ++ sep ++ strJoin sep l'
  | [x], l', _, h' => by simp [strJoin_cons h', strJoin]
  | x :: y :: l, l', _, h' => by
    have ih := strJoin_append (sep := sep) (l := y :: l) (by simp) h'
    rw [List.cons_append, strJoin_cons (by simp), ih, strJoin_cons (l := y :: l) (by simp)]
    simp [String.append_assoc]

theorem fdBlock_ne (l : List String) : fdBlock l ≠ [] := by
  unfold fdBlock
  split <;> simp_all

theorem strJoin_block {sep : String} (l : List String) : strJoin sep (fdBlock l) = strJoin sep l := by
  unfold fdBlock
  split
  · subst_vars; rfl
  · rfl

theorem strJoin_flatten {sep : String} : ∀ {l : List (List String)}, (∀ x ∈ l, x ≠ []) →
    strJoin sep (l.map (strJoin sep)) = strJoin sep l.flatten
  | [], _ => rfl
  | [x], _ => by simp [strJoin]
  | x :: y :: l, h => by
    have ih := strJoin_flatten (sep := sep) (l := y :: l) fun z hz => h z (.tail _ hz)
    have hy : (y :: l).flatten ≠ [] := by
      have := h y (.tail _ (.head _))
      simp [this]
    rw [List.map_cons, strJoin_cons (by simp), ih, List.flatten_cons (l := x), strJoin_append (h x (.head _)) hy]

theorem fdText_eq (d : FdDoc) : fdText d = strJoin "\n" (fdLines d) ++ "\n" := by
  have key : ∀ l : List String, l ≠ [] → String.join (l.map (· ++ "\n")) = strJoin "\n" l ++ "\n" := by
    intro l hl
    apply String.toList_injective
    induction l with
    | nil => exact absurd rfl hl
    | cons x l ih =>
      cases l with
      | nil => simp [strJoin, String.toList_join]
      | cons y l =>
        have := ih (by simp)
        rw [String.toList_join] at this ⊢
        rw [List.map_cons, List.flatMap_cons, this, strJoin_cons (x := x) (l := y :: l) (by simp)]
        simp
  exact key _ (by simp [fdLines])

theorem commaText (l : List String) : String.intercalate "," l = strJoin "," l := by
  apply String.toList_injective
  rw [String.toList_intercalate]
  induction l with
  | nil => simp [strJoin]
  | cons x l ih =>
    cases l with
    | nil => simp [strJoin]
    | cons y l =>
      rw [strJoin_cons (by simp)]
      simp only [String.toList_append, ← ih, List.map_cons]
      simp [List.intercalate, List.intersperse]


theorem natText_inj {n k : Nat} (h : toString n = toString k) : n = k := by
  have h' : (toString n).toList = (toString k).toList := by rw [h]
  simp only [toString, Nat.repr_eq_ofList_toDigits, String.toList_ofList] at h'
  have := digitsVal_toDigits n
  rw [h', digitsVal_toDigits k] at this
  exact Int.ofNat.inj this.symm

theorem natText_no {c : Char} (hc : isDig c = false) (n : Nat) : c ∉ (toString n).toList := by
  intro h
  simp only [toString, Nat.repr_eq_ofList_toDigits, String.toList_ofList] at h
  have := digits_dig n c h
  rw [hc] at this
  cases this

theorem fdPair_inj {p q : Nat × Nat} (h : fdPair p = fdPair q) : p = q := by
  have h' : (fdPair p).toList = (fdPair q).toList := by rw [h]
  simp only [fdPair, String.toList_append, List.append_assoc] at h'
  have e : (" " : String).toList = [' '] := rfl
  rw [e, List.singleton_append, List.singleton_append] at h'
  obtain ⟨h1, h2⟩ := split_at_char (natText_no (by decide) _) (natText_no (by decide) _) h'
  exact Prod.ext (natText_inj (String.toList_injective h1)) (natText_inj (String.toList_injective h2))

theorem fdEff_inj {p q : Nat × Nat} (h : fdEff p = fdEff q) : p = q := by
  apply fdPair_inj
  have h' : (fdEff p).toList = (fdEff q).toList := by rw [h]
  simp only [fdEff, String.toList_append, List.append_assoc] at h'
  apply String.toList_injective
  simp only [fdPair, String.toList_append, List.append_assoc]
  exact List.append_cancel_left h'

theorem fdBlock_inj {α : Type} {f : α → String} (hf : ∀ x y, f x = f y → x = y) (hne : ∀ x, f x ≠ "") {l l' : List α}
    (h : fdBlock (l.map f) = fdBlock (l'.map f)) : l = l' := by
  have hinj : ∀ l l' : List α, l.map f = l'.map f → l = l' := by
    intro l
    induction l with
    | nil => intro l' h; cases l' with
      | nil => rfl
      | cons y l' => simp at h
    | cons x l ih => intro l' h; cases l' with
      | nil => simp at h
      | cons y l' =>
        simp only [List.map_cons, List.cons.injEq] at h
        rw [hf _ _ h.1, ih l' h.2]
  cases l with
  | nil =>
    cases l' with
    | nil => rfl
    | cons y l' =>
      simp only [fdBlock, List.map_nil, if_true, List.map_cons, reduceCtorEq, if_false, List.cons.injEq] at h
      exact absurd h.1.symm (hne y)
  | cons x l =>
    cases l' with
    | nil =>
      simp only [fdBlock, List.map_nil, if_true, List.map_cons, reduceCtorEq, if_false, List.cons.injEq] at h
      exact absurd h.1 (hne x)
    | cons y l' =>
      simp only [fdBlock, List.map_cons, reduceCtorEq, if_false] at h
      exact hinj (x :: l) (y :: l') (by simpa using h)

theorem fdPair_ne (p : Nat × Nat) (s : String) (hs : ' ' ∉ s.toList) : fdPair p ≠ s := by
  intro h
  apply hs
  rw [← h]
  simp [fdPair]

theorem fdEff_ne (p : Nat × Nat) : fdEff p ≠ "" := by
  intro h
  have : (fdEff p).toList = [] := by rw [h]; rfl
  simp [fdEff] at this

theorem split_at_elem {α : Type} {c : α} : ∀ {a b r s : List α}, c ∉ a → c ∉ b → a ++ c :: r = b ++ c :: s → a = b ∧ r = s
  | [], [], r, s, _, _, h => by simpa using h
  | [], y :: b, r, s, _, hb, h => by
    simp only [List.nil_append, List.cons_append, List.cons.injEq] at h
    simp [h.1] at hb
  | x :: a, [], r, s, ha, _, h => by
    simp only [List.nil_append, List.cons_append, List.cons.injEq] at h
    simp [h.1] at ha
  | x :: a, y :: b, r, s, ha, hb, h => by
    simp only [List.cons_append, List.cons.injEq] at h
    simp only [List.mem_cons, not_or] at ha hb
    obtain ⟨h1, h2⟩ := split_at_elem ha.2 hb.2 h.2
    exact ⟨by rw [h.1, h1], h2⟩

theorem fdBlock_length {l l' : List String} (h : l.length = l'.length) : (fdBlock l).length = (fdBlock l').length := by
  cases l with
  | nil => cases l' with
    | nil => rfl
    | cons y l' => simp at h
  | cons x l => cases l' with
    | nil => simp at h
    | cons y l' => simpa [fdBlock] using h

theorem fdBlock_eq {l l' : List String} (h : l.length = l'.length) (he : fdBlock l = fdBlock l') : l = l' := by
  cases l with
  | nil => cases l' with
    | nil => rfl
    | cons y l' => simp at h
  | cons x l => cases l' with
    | nil => simp at h
    | cons y l' => simpa [fdBlock] using he

theorem fdVarLines_inj : ∀ {vs vs' : List (String × List String)} {r r' : List String}, vs.length = vs'.length →
    vs.flatMap fdVarLines ++ r = vs'.flatMap fdVarLines ++ r' → vs = vs' ∧ r = r'
  | [], [], _, _, _, h => ⟨rfl, by simpa using h⟩
  | [], _ :: _, _, _, hl, _ => by simp at hl
  | _ :: _, [], _, _, hl, _ => by simp at hl
  | (n, l) :: vs, (n', l') :: vs', r, r', hl, h => by
    simp only [List.flatMap_cons, fdVarLines, List.append_assoc, List.cons_append, List.cons.injEq, List.nil_append, true_and] at h
    obtain ⟨h1, h2, h3⟩ := h
    have hlen := natText_inj h2
    obtain ⟨h4, h5⟩ := List.append_inj h3 (fdBlock_length hlen)
    simp only [List.cons.injEq, true_and] at h5
    obtain ⟨h6, h7⟩ := fdVarLines_inj (by simpa using hl) h5
    rw [h1, fdBlock_eq hlen h4, h6]
    exact ⟨rfl, h7⟩

theorem fdOpLines_inj : ∀ {os os' : List (String × List (Nat × Nat × Nat))} {r r' : List String}, os.length = os'.length →
    os.flatMap fdOpLines ++ r = os'.flatMap fdOpLines ++ r' → os = os' ∧ r = r'
  | [], [], _, _, _, h => ⟨rfl, by simpa using h⟩
  | [], _ :: _, _, _, hl, _ => by simp at hl
  | _ :: _, [], _, _, hl, _ => by simp at hl
  | (n, l) :: vs, (n', l') :: vs', r, r', hl, h => by
    simp only [List.flatMap_cons, fdOpLines, List.append_assoc, List.cons_append, List.cons.injEq, List.nil_append, true_and] at h
    obtain ⟨h1, h2, h3⟩ := h
    have hlen := natText_inj h2
    obtain ⟨h4, h5⟩ := List.append_inj h3 (fdBlock_length (by simpa using hlen))
    simp only [List.cons.injEq] at h5
    obtain ⟨h8, h9⟩ := List.append_inj h5.2 (fdBlock_length (by simpa using hlen))
    simp only [List.cons.injEq, true_and] at h9
    obtain ⟨h6, h7⟩ := fdOpLines_inj (by simpa using hl) h9
    have e1 := fdBlock_eq (by simpa using hlen) h4
    have e2 := fdBlock_eq (by simpa using hlen) h8
    have : l = l' := by
      clear h2 h3 h4 h5 h8 h9 hl
      induction l generalizing l' with
      | nil => cases l' with
        | nil => rfl
        | cons y l' => simp at hlen
      | cons x l ih => cases l' with
        | nil => simp at hlen
        | cons y l' =>
          simp only [List.map_cons, List.cons.injEq] at e1 e2
          have g1 := fdPair_inj e1.1
          have g2 := fdEff_inj e2.1
          simp only [Prod.mk.injEq] at g1 g2
          have : x = y := Prod.ext g1.1 (Prod.ext g1.2 g2.2)
          rw [this, ih l' (by simpa using hlen) e1.2 e2.2]
    rw [h1, this, h6]
    exact ⟨rfl, h7⟩

theorem mem_fdBlock_pair {l : List (Nat × Nat)} {s : String} (hs : ' ' ∉ s.toList) (hne : s ≠ "") : s ∉ fdBlock (l.map fdPair) := by
  unfold fdBlock
  split
  · simpa using hne
  · intro h
    obtain ⟨p, -, e⟩ := List.mem_map.1 h
    exact fdPair_ne p s hs e

theorem fdLines_inj {d d' : FdDoc} (h : fdLines d = fdLines d') : d = d' := by
  simp only [fdLines, fdInitLines, fdGoalLines, List.append_assoc, List.cons_append, List.cons.injEq, List.nil_append, true_and] at h
  obtain ⟨hn, h⟩ := h
  have hlen := natText_inj hn
  have hv : d.vars = d'.vars ∧ ("0" :: "begin_axiom_defaults" :: "0" :: "end_axiom_defaults" :: "0" :: toString d.ops.length ::
      (d.ops.flatMap fdOpLines ++ "begin_initial_state" :: toString d.vars.length :: (fdBlock (d.init.map fdPair) ++
        "end_initial_state" :: "begin_goal" :: (fdBlock (d.goal.map fdPair) ++ ["end_goal"])))) =
      ("0" :: "begin_axiom_defaults" :: "0" :: "end_axiom_defaults" :: "0" :: toString d'.ops.length ::
      (d'.ops.flatMap fdOpLines ++ "begin_initial_state" :: toString d'.vars.length :: (fdBlock (d'.init.map fdPair) ++
        "end_initial_state" :: "begin_goal" :: (fdBlock (d'.goal.map fdPair) ++ ["end_goal"])))) := by
    have hb : ∀ vs : List (String × List String), vs ≠ [] → fdBlock (vs.flatMap fdVarLines) = vs.flatMap fdVarLines := by
      intro vs hvs
      unfold fdBlock
      cases vs with
      | nil => exact absurd rfl hvs
      | cons v vs => simp [fdVarLines]
    cases hd : d.vars with
    | nil =>
      cases hd' : d'.vars with
      | nil =>
        rw [hd, hd'] at h
        simp only [List.flatMap_nil, fdBlock, if_true, List.cons_append, List.nil_append, List.cons.injEq, true_and] at h
        refine ⟨rfl, ?_⟩
        simp only [fdBlock, List.cons.injEq, true_and]
        exact h
      | cons v vs => rw [hd, hd'] at hlen; simp at hlen
    | cons v vs =>
      cases hd' : d'.vars with
      | nil => rw [hd, hd'] at hlen; simp at hlen
      | cons v' vs' =>
        rw [hb _ (by rw [hd]; simp), hb _ (by rw [hd']; simp)] at h
        obtain ⟨h1, h2⟩ := fdVarLines_inj hlen h
        rw [← hd, ← hd']
        exact ⟨h1, h2⟩
  obtain ⟨hv, h⟩ := hv
  simp only [List.cons.injEq, true_and] at h
  obtain ⟨ho, h⟩ := h
  obtain ⟨ho, h⟩ := fdOpLines_inj (natText_inj ho) h
  simp only [List.cons.injEq, true_and] at h
  obtain ⟨hi, h⟩ := split_at_elem (mem_fdBlock_pair (by decide) (by decide)) (mem_fdBlock_pair (by decide) (by decide)) h.2
  have hi := fdBlock_inj (fun _ _ => fdPair_inj) (fun p => fdPair_ne p "" (by decide)) hi
  simp only [List.cons.injEq, true_and] at h
  have hg := List.append_cancel_right h
  have hg := fdBlock_inj (fun _ _ => fdPair_inj) (fun p => fdPair_ne p "" (by decide)) hg
  cases d
  cases d'
  simp_all

theorem lines_inj : ∀ {l l' : List String}, (∀ x ∈ l, '\n' ∉ x.toList) → (∀ x ∈ l', '\n' ∉ x.toList) →
    String.join (l.map (· ++ "\n")) = String.join (l'.map (· ++ "\n")) → l = l'
  | [], [], _, _, _ => rfl
  | [], y :: l', _, _, h => by
    have : (String.join (([] : List String).map (· ++ "\n"))).toList = (String.join ((y :: l').map (· ++ "\n"))).toList := by rw [h]
    simp [String.toList_join] at this
  | x :: l, [], _, _, h => by
    have : (String.join ((x :: l).map (· ++ "\n"))).toList = (String.join (([] : List String).map (· ++ "\n"))).toList := by rw [h]
    simp [String.toList_join] at this
  | x :: l, y :: l', hx, hy, h => by
    have h' : (String.join ((x :: l).map (· ++ "\n"))).toList = (String.join ((y :: l').map (· ++ "\n"))).toList := by rw [h]
    have e : ("\n" : String).toList = ['\n'] := rfl
    simp only [String.toList_join, List.map_cons, List.flatMap_cons, String.toList_append, e, List.append_assoc, List.singleton_append] at h'
    obtain ⟨h1, h2⟩ := split_at_char (hx x (.head _)) (hy y (.head _)) h'
    rw [String.toList_injective h1, lines_inj (l := l) (l' := l') (fun x h => hx x (.tail _ h)) (fun x h => hy x (.tail _ h))]
    apply String.toList_injective
    rw [String.toList_join, String.toList_join]
    exact h2

/-! ### Lemmas on the writer -/

theorem addAll_keys {α : Type} [DecidableEq α] (os : List α) :
    ((SymIndex.empty : SymIndex α).addAll os).data.map (·.1) = ((SymIndex.empty : SymIndex α).addAll os).objects ∧
    ((SymIndex.empty : SymIndex α).addAll os).len = ((SymIndex.empty : SymIndex α).addAll os).objects.length := by
  obtain ⟨h1, h2⟩ := siInv_addAll os
  constructor
  · rw [h2, List.map_map]
    exact enum_snd 0 _
  · unfold SymIndex.len
    rw [h2, List.length_map, enum_length]

theorem getObject_iff {α : Type} (s : SymIndex α) (i : Nat) (o : α) : s.getObject i = .ok o ↔ s.objects[i]? = some o := by
  unfold SymIndex.getObject pyGet
  have h1 : ¬ ((i : Int) < 0) := by omega
  simp only [h1, if_false, Int.toNat_natCast]
  cases s.objects[i]? with
  | none => simp
  | some x => simp

theorem elemList_ok {t : SasTask} {elem : Nat × Nat → String} : ∀ {l : List (Term × Term)} {es},
    elemList t elem l = .ok es ↔ ∃ ps, es = ps.map elem ∧ List.Forall₂ (fun x p => t.indexOf x.1 x.2 = .ok p) l ps
  | [], es => by
    simp only [elemList, Except.ok.injEq]
    constructor
    · rintro rfl; exact ⟨[], rfl, .nil⟩
    · rintro ⟨ps, rfl, h⟩; cases h; rfl
  | (x, v) :: l, es => by
    simp only [elemList]
    constructor
    · intro h
      cases h1 : t.indexOf x v with
      | error e => simp [h1] at h
      | ok p =>
        simp only [h1] at h
        cases h2 : elemList t elem l with
        | error e => simp [h2] at h
        | ok es' =>
          simp only [h2, Except.ok.injEq] at h
          obtain ⟨ps, e, hps⟩ := elemList_ok.1 h2
          exact ⟨p :: ps, by simp [← h, e], .cons h1 hps⟩
    · rintro ⟨ps, rfl, h⟩
      cases h with
      | cons h h' =>
        simp only at h
        simp [h, elemList_ok.2 ⟨_, rfl, h'⟩]

theorem variableElems_ok {str : Term → String} {t : SasTask} : ∀ {xs : List Term} {es},
    variableElems str t xs = .ok es ↔ List.Forall₂ (fun x e => ∃ d, dlookup t.domains x = some d ∧ e = variableElem str x d) xs es
  | [], es => by
    simp only [variableElems, Except.ok.injEq]
    constructor
    · rintro rfl; exact .nil
    · intro h; cases h; rfl
  | x :: xs, es => by
    simp only [variableElems, SasTask.domain]
    cases h1 : dlookup t.domains x with
    | none =>
      simp only [reduceCtorEq, false_iff]
      intro h
      cases h with
      | cons h _ => obtain ⟨d, hd, _⟩ := h; rw [h1] at hd; cases hd
    | some d =>
      simp only
      cases h2 : variableElems str t xs with
      | error e =>
        simp only [reduceCtorEq, false_iff]
        intro h
        cases h with
        | cons _ h => rw [← variableElems_ok, h2] at h; cases h
      | ok es' =>
        simp only [Except.ok.injEq]
        have h2' := variableElems_ok.1 h2
        constructor
        · rintro rfl; exact .cons ⟨d, h1, rfl⟩ h2'
        · intro h
          cases h with
          | cons h h' =>
            obtain ⟨d', hd', rfl⟩ := h
            rw [h1] at hd'
            cases hd'
            rw [← variableElems_ok, h2] at h'
            cases h'
            rfl

/-- The text of an operator, given the positions. -/
theorem operatorElem_ok {t : SasTask} {a : SasAction} {s : String} (h : operatorElem t a = .ok s) :
    ∃ ps : List (Nat × Nat × Nat), s = strJoin "\n" (fdOpLines (sasActionName a, ps)) ∧
      List.Forall₂ (fun x p => t.indexOf x.1 x.2.1 = .ok (p.1, p.2.1) ∧ t.indexOf x.1 x.2.2 = .ok (p.1, p.2.2)) a.trans ps := by
  unfold operatorElem at h
  cases h1 : elemList t pairElem (a.trans.map fun x => (x.1, x.2.1)) with
  | error e => simp [h1] at h
  | ok pre =>
    simp only [h1] at h
    cases h2 : elemList t effectElem (a.trans.map fun x => (x.1, x.2.2)) with
    | error e => simp [h2] at h
    | ok eff =>
      simp only [h2, Except.ok.injEq] at h
      obtain ⟨ps, rfl, hps⟩ := elemList_ok.1 h1
      obtain ⟨qs, rfl, hqs⟩ := elemList_ok.1 h2
      rw [List.forall₂_map_left_iff] at hps hqs
      obtain ⟨rs, hrs, e1, e2⟩ : ∃ rs : List (Nat × Nat × Nat),
          List.Forall₂ (fun x p => t.indexOf x.1 x.2.1 = .ok (p.1, p.2.1) ∧ t.indexOf x.1 x.2.2 = .ok (p.1, p.2.2)) a.trans rs ∧
          ps = rs.map (fun r => (r.1, r.2.1)) ∧ qs = rs.map (fun r => (r.1, r.2.2)) := by
        clear h h1 h2
        generalize a.trans = l at hps hqs
        induction hps generalizing qs with
        | nil => cases hqs; exact ⟨[], .nil, rfl, rfl⟩
        | @cons x p l ps hx _ ih =>
          cases hqs with
          | @cons _ q _ qs hy hqs =>
            obtain ⟨rs, hrs, rfl, rfl⟩ := ih qs hqs
            have : p.1 = q.1 := by
              unfold SasTask.indexOf at hx hy
              cases hi : t.stateVars.getIndex x.1 with
              | error e => simp [hi] at hx
              | ok i =>
                simp only [hi] at hx hy
                cases hd : t.domain x.1 with
                | error e => simp [hd] at hx
                | ok d =>
                  simp only [hd] at hx hy
                  cases hj : d.getIndex x.2.1 with
                  | error e => simp [hj] at hx
                  | ok j =>
                    cases hk : d.getIndex x.2.2 with
                    | error e => simp [hk] at hy
                    | ok k =>
                      simp only [hj, hk, Except.ok.injEq] at hx hy
                      rw [← hx, ← hy]
            refine ⟨(p.1, p.2, q.2) :: rs, .cons ⟨hx, ?_⟩ hrs, rfl, ?_⟩
            · rw [this]; exact hy
            · simp [this]
      refine ⟨rs, ?_, hrs⟩
      have hl : a.trans.length = rs.length := hrs.length_eq
      rw [← h, e1, e2, hl]
      have hf : (rs.map fun r => (r.1, r.2.1)).map pairElem = rs.map fun x => fdPair (x.1, x.2.1) := by
        simp [pairElem, fdPair]
      have hg : (rs.map fun r => (r.1, r.2.2)).map effectElem = rs.map fun x => fdEff (x.1, x.2.2) := by
        simp only [List.map_map]
        refine List.map_congr_left fun x _ => ?_
        apply String.toList_injective
        simp [effectElem, fdEff]
      rw [hf, hg]
      simp only [fdOpLines, List.append_assoc]
      rw [strJoin_append (by simp) (by simp [fdBlock_ne]), strJoin_append (fdBlock_ne _) (by simp), strJoin_append (by simp) (by simp [fdBlock_ne]),
        strJoin_append (fdBlock_ne _) (by simp), strJoin_block, strJoin_block]
      apply String.toList_injective
      simp [strJoin]

theorem operatorElems_ok {t : SasTask} : ∀ {as : List SasAction} {es}, operatorElems t as = .ok es →
    List.Forall₂ (fun a e => operatorElem t a = .ok e) as es
  | [], es, h => by
    simp only [operatorElems, Except.ok.injEq] at h
    subst h
    exact .nil
  | a :: as, es, h => by
    simp only [operatorElems] at h
    cases h1 : operatorElem t a with
    | error e => simp [h1] at h
    | ok o =>
      simp only [h1] at h
      cases h2 : operatorElems t as with
      | error e => simp [h2] at h
      | ok os =>
        simp only [h2, Except.ok.injEq] at h
        subst h
        exact .cons h1 (operatorElems_ok h2)

theorem indexOf_ok {t : SasTask} (ht : t.Indexed) {x v : Term} {p : Nat × Nat} : t.indexOf x v = .ok p ↔
    t.stateVars.getObject p.1 = .ok x ∧ ∃ dom, dlookup t.domains x = some dom ∧ dom.getObject p.2 = .ok v := by
  have hidx : ∀ (s : SymIndex Term), (∃ os, s = SymIndex.empty.addAll os) → ∀ (o : Term) (i : Nat),
      s.getIndex o = .ok i ↔ s.getObject i = .ok o := by
    rintro s ⟨os, rfl⟩ o i
    have := C23_index_bijection os o i
    simp only at this
    rw [this.1, this.2.1]
  obtain ⟨i, j⟩ := p
  unfold SasTask.indexOf SasTask.domain
  rw [← hidx _ ht.vars]
  constructor
  · intro h
    cases hi : t.stateVars.getIndex x with
    | error e => simp [hi] at h
    | ok i' =>
      simp only [hi] at h
      cases hd : dlookup t.domains x with
      | none => simp [hd] at h
      | some d =>
        simp only [hd] at h
        cases hj : d.getIndex v with
        | error e => simp [hj] at h
        | ok j' =>
          simp only [hj, Except.ok.injEq, Prod.mk.injEq] at h
          obtain ⟨rfl, rfl⟩ := h
          exact ⟨rfl, d, rfl, (hidx d (ht.doms x d hd) v _).1 hj⟩
  · rintro ⟨h1, d, h2, h3⟩
    rw [← hidx d (ht.doms x d h2)] at h3
    simp [h1, h2, h3]

theorem forall₂_get {α β : Type} {P : α → β → Prop} {l : List α} {l' : List β} (h : List.Forall₂ P l l') {i : Nat} {x : α}
    (hi : l[i]? = some x) : ∃ y, l'[i]? = some y ∧ P x y := by
  induction h generalizing i with
  | nil => simp at hi
  | @cons a b l l' hp _ ih =>
    cases i with
    | zero => simp only [List.getElem?_cons_zero, Option.some.injEq] at hi; subst hi; exact ⟨_, rfl, hp⟩
    | succ i =>
      simp only [List.getElem?_cons_succ] at hi ⊢
      exact ih hi

theorem refersTo_of_index {str : Term → String} {t : SasTask} (ht : t.Indexed) {d : FdDoc}
    (hv : List.Forall₂ (fun x v => v.1 = str x ∧ ∃ dom, dlookup t.domains x = some dom ∧ v.2 = dom.objects.map str) t.stateVars.objects d.vars)
    {x v : Term} {p : Nat × Nat} (h : t.indexOf x v = .ok p) : RefersAt str t d p x v := by
  obtain ⟨h1, dom, h2, h3⟩ := (indexOf_ok ht).1 h
  refine ⟨h1, ⟨dom, h2, h3⟩, ?_⟩
  rw [getObject_iff] at h1 h3
  obtain ⟨⟨n, vals⟩, g1, g2, dom', g3, g4⟩ := forall₂_get hv h1
  rw [h2] at g3
  cases g3
  simp only at g2 g4
  subst g2 g4
  exact ⟨_, g1, by simp [h3]⟩

theorem variableElem_text (str : Term → String) (x : Term) (d : SymIndex Term) (hd : ∃ os, d = SymIndex.empty.addAll os) :
    variableElem str x d = strJoin "\n" (fdVarLines (str x, d.objects.map str)) := by
  obtain ⟨os, rfl⟩ := hd
  simp only [fdVarLines, List.append_assoc]
  rw [strJoin_append (by simp) (by simp [fdBlock_ne]), strJoin_append (fdBlock_ne _) (by simp), strJoin_block]
  unfold variableElem valueSection
  rw [(addAll_keys os).2]
  apply String.toList_injective
  simp [strJoin]

theorem metricType_one (t : SasTask) : t.metricType = "1" := by
  unfold SasTask.metricType
  cases t.unitCosts <;> rfl

/-! ### C72 -/

set_option maxRecDepth 20000 in
/-- C72: whenever the writer returns, the text has the layout above, and describes the task: one entry for each state
variable with all its values, one operator for each action, and every position in a precondition, an effect, the initial
state or the goal is that of the state variable and of the value in question, in the tables of the same file. -/
theorem C72_faithful (str : Term → String) (t : SasTask) (ht : t.Indexed) (text : String) (h : dumpSas str t = .ok text) :
    ∃ d, text = fdText d ∧ Describe str t d := by
  unfold dumpSas at h
  obtain ⟨os, hos⟩ := ht.vars
  obtain ⟨hk, hlen⟩ : t.stateVars.data.map (·.1) = t.stateVars.objects ∧ t.stateVars.len = t.stateVars.objects.length := by
    rw [hos]; exact addAll_keys os
  rw [hk, hlen] at h
  cases h1 : variableElems str t t.stateVars.objects with
  | error e => simp [h1] at h
  | ok ves =>
    simp only [h1] at h
    cases h2 : operatorsSection t with
    | error e => simp [h2] at h
    | ok ops =>
      simp only [h2] at h
      cases h3 : initialSection t with
      | error e => simp [h3] at h
      | ok ini =>
        simp only [h3] at h
        cases h4 : goalSection t with
        | error e => simp [h4] at h
        | ok goal =>
          simp only [h4, Except.ok.injEq] at h
          -- the state variables
          obtain ⟨vars, hvars, hves⟩ : ∃ vars : List (String × List String),
              List.Forall₂ (fun x v => v.1 = str x ∧ ∃ dom, dlookup t.domains x = some dom ∧ v.2 = dom.objects.map str) t.stateVars.objects vars ∧
              ves = vars.map (fun v => strJoin "\n" (fdVarLines v)) := by
            have := variableElems_ok.1 h1
            clear h h1 hk hlen hos
            generalize t.stateVars.objects = xs at this
            induction this with
            | nil => exact ⟨[], .nil, rfl⟩
            | @cons x e xs es hx _ ih =>
              obtain ⟨vars, i1, rfl⟩ := ih
              obtain ⟨d, hd, rfl⟩ := hx
              exact ⟨(str x, d.objects.map str) :: vars, .cons ⟨rfl, d, hd, rfl⟩ i1, by
                rw [List.map_cons, variableElem_text str x d (ht.doms x d hd)]⟩
          -- the operators
          obtain ⟨hne, os', hos', hops⟩ : t.actions ≠ [] ∧ ∃ os' : List (String × List (Nat × Nat × Nat)),
              List.Forall₂ (fun a o => o.1 = sasActionName a ∧
                List.Forall₂ (fun x p => t.indexOf x.1 x.2.1 = .ok (p.1, p.2.1) ∧ t.indexOf x.1 x.2.2 = .ok (p.1, p.2.2)) a.trans o.2) t.actions os' ∧
              ops = strJoin "\n" (os'.map (fun v => strJoin "\n" (fdOpLines v))) := by
            unfold operatorsSection at h2
            by_cases hp : t.actions.length > 0
            · rw [if_pos hp] at h2
              refine ⟨fun e => by simp [e] at hp, ?_⟩
              cases h5 : operatorElems t t.actions with
              | error e => simp [h5] at h2
              | ok es =>
                simp only [h5, Except.ok.injEq] at h2
                rw [← h2]
                have := operatorElems_ok h5
                suffices hs : ∃ os' : List (String × List (Nat × Nat × Nat)),
                    List.Forall₂ (fun a o => o.1 = sasActionName a ∧
                      List.Forall₂ (fun x p => t.indexOf x.1 x.2.1 = .ok (p.1, p.2.1) ∧ t.indexOf x.1 x.2.2 = .ok (p.1, p.2.2)) a.trans o.2) t.actions os' ∧
                    es = os'.map (fun v => strJoin "\n" (fdOpLines v)) by
                  obtain ⟨os', i1, i2⟩ := hs
                  exact ⟨os', i1, by rw [i2]⟩
                clear h h5 hp h2
                generalize t.actions = as at this
                induction this with
                | nil => exact ⟨[], .nil, rfl⟩
                | @cons a e as es ha _ ih =>
                  obtain ⟨os', i1, i2⟩ := ih
                  obtain ⟨ps, rfl, hps⟩ := operatorElem_ok ha
                  exact ⟨(sasActionName a, ps) :: os', .cons ⟨rfl, hps⟩ i1, by rw [i2]; rfl⟩
            · rw [if_neg hp] at h2; cases h2
          -- initial state and goal
          obtain ⟨is, his, hini⟩ : ∃ is, List.Forall₂ (fun x p => t.indexOf x.1 x.2 = .ok p) t.initial is ∧
              ini = "begin_initial_state\n" ++ toString t.stateVars.len ++ "\n" ++ strJoin "\n" (is.map fdPair) ++ "\nend_initial_state" := by
            unfold initialSection at h3
            cases h5 : elemList t pairElem t.initial with
            | error e => simp [h5] at h3
            | ok es =>
              simp only [h5, Except.ok.injEq] at h3
              obtain ⟨ps, rfl, hps⟩ := elemList_ok.1 h5
              exact ⟨ps, hps, h3.symm⟩
          obtain ⟨gs, hgs, hgoal⟩ : ∃ gs, List.Forall₂ (fun x p => t.indexOf x.1 x.2 = .ok p) t.goal gs ∧
              goal = "begin_goal\n" ++ strJoin "\n" (gs.map fdPair) ++ "\nend_goal" := by
            unfold goalSection at h4
            cases h5 : elemList t pairElem t.goal with
            | error e => simp [h5] at h4
            | ok es =>
              simp only [h5, Except.ok.injEq] at h4
              obtain ⟨ps, rfl, hps⟩ := elemList_ok.1 h5
              exact ⟨ps, hps, h4.symm⟩
          refine ⟨⟨vars, os', is, gs⟩, ?_, hvars, ?_, ?_, ?_⟩
          · have ho : os'.flatMap fdOpLines ≠ [] := by
              cases os' with
              | nil => exact absurd (List.length_eq_zero_iff.1 hos'.length_eq) hne
              | cons o os' => simp [fdOpLines]
            rw [fdText_eq, ← h, hves, hops, hini, hgoal]
            have e1 : strJoin "\n" (vars.map fun v => strJoin "\n" (fdVarLines v)) = strJoin "\n" (vars.flatMap fdVarLines) := by
              rw [List.flatMap_def, ← strJoin_flatten, List.map_map]
              · rfl
              · intro x hx
                obtain ⟨v, -, rfl⟩ := List.mem_map.1 hx
                simp [fdVarLines]
            have e2 : strJoin "\n" (os'.map fun v => strJoin "\n" (fdOpLines v)) = strJoin "\n" (os'.flatMap fdOpLines) := by
              rw [List.flatMap_def, ← strJoin_flatten, List.map_map]
              · rfl
              · intro x hx
                obtain ⟨v, -, rfl⟩ := List.mem_map.1 hx
                simp [fdOpLines]
            have l1 : t.stateVars.objects.length = vars.length := hvars.length_eq
            have l2 : t.actions.length = os'.length := hos'.length_eq
            rw [e1, e2, hlen, l1, l2, metricType_one]
            simp only [fdLines, fdInitLines, fdGoalLines, List.append_assoc]
            rw [strJoin_append (by simp) (by simp [fdBlock_ne]), strJoin_append (fdBlock_ne _) (by simp), strJoin_append (by simp) (by simp [ho]),
              strJoin_append ho (by simp), strJoin_append (by simp) (by simp [fdBlock_ne]), strJoin_append (fdBlock_ne _) (by simp),
              strJoin_append (by simp) (by simp [fdBlock_ne]), strJoin_append (by simp) (by simp [fdBlock_ne]), strJoin_append (fdBlock_ne _) (by simp),
              strJoin_block, strJoin_block, strJoin_block]
            apply String.toList_injective
            simp [strJoin]
          · refine hos'.imp fun a o ha => ⟨?_, ?_⟩
            · rw [ha.1, commaText]; rfl
            · exact ha.2.imp fun x p hp => ⟨refersTo_of_index ht hvars hp.1, refersTo_of_index ht hvars hp.2⟩
          · exact his.imp fun x p hp => refersTo_of_index ht hvars hp
          · exact hgs.imp fun x p hp => refersTo_of_index ht hvars hp


/-- A state variable of the task, and a value of its domain. -/
def KnownPair (t : SasTask) (x v : Term) : Prop :=
  x ∈ t.stateVars.objects ∧ ∃ dom, dlookup t.domains x = some dom ∧ v ∈ dom.objects

theorem knownPair_iff {t : SasTask} (ht : t.Indexed) {x v : Term} : KnownPair t x v ↔ ∃ p, t.indexOf x v = .ok p := by
  constructor
  · rintro ⟨h1, dom, h2, h3⟩
    obtain ⟨i, hi⟩ := List.mem_iff_getElem?.1 h1
    obtain ⟨j, hj⟩ := List.mem_iff_getElem?.1 h3
    exact ⟨(i, j), (indexOf_ok ht).2 ⟨(getObject_iff _ _ _).2 hi, dom, h2, (getObject_iff _ _ _).2 hj⟩⟩
  · rintro ⟨p, hp⟩
    obtain ⟨h1, dom, h2, h3⟩ := (indexOf_ok ht).1 hp
    exact ⟨List.mem_of_getElem? ((getObject_iff _ _ _).1 h1), dom, h2, List.mem_of_getElem? ((getObject_iff _ _ _).1 h3)⟩

theorem elemList_returns {t : SasTask} (ht : t.Indexed) {elem : Nat × Nat → String} : ∀ {l : List (Term × Term)},
    (∃ es, elemList t elem l = .ok es) ↔ ∀ x ∈ l, KnownPair t x.1 x.2
  | [] => by simp [elemList]
  | (x, v) :: l => by
    rw [List.forall_mem_cons, ← elemList_returns ht (elem := elem), knownPair_iff ht]
    simp only [elemList]
    cases t.indexOf x v with
    | error e => simp
    | ok p =>
      cases elemList t elem l with
      | error e => simp
      | ok es => simp

theorem operatorElem_returns {t : SasTask} (ht : t.Indexed) (a : SasAction) :
    (∃ s, operatorElem t a = .ok s) ↔ ∀ x ∈ a.trans, KnownPair t x.1 x.2.1 ∧ KnownPair t x.1 x.2.2 := by
  have h1 := elemList_returns ht (elem := pairElem) (l := a.trans.map fun x => (x.1, x.2.1))
  have h2 := elemList_returns ht (elem := effectElem) (l := a.trans.map fun x => (x.1, x.2.2))
  rw [List.forall_mem_map] at h1 h2
  have : (∀ x ∈ a.trans, KnownPair t x.1 x.2.1 ∧ KnownPair t x.1 x.2.2) ↔
      (∀ x ∈ a.trans, KnownPair t x.1 x.2.1) ∧ ∀ x ∈ a.trans, KnownPair t x.1 x.2.2 :=
    ⟨fun h => ⟨fun x hx => (h x hx).1, fun x hx => (h x hx).2⟩, fun h x hx => ⟨h.1 x hx, h.2 x hx⟩⟩
  rw [this, ← h1, ← h2]
  unfold operatorElem
  cases elemList t pairElem (a.trans.map fun x => (x.1, x.2.1)) with
  | error e => simp
  | ok pre =>
    cases elemList t effectElem (a.trans.map fun x => (x.1, x.2.2)) with
    | error e => simp
    | ok eff => simp

theorem operatorElems_returns {t : SasTask} (ht : t.Indexed) : ∀ {as : List SasAction},
    (∃ es, operatorElems t as = .ok es) ↔ ∀ a ∈ as, ∀ x ∈ a.trans, KnownPair t x.1 x.2.1 ∧ KnownPair t x.1 x.2.2
  | [] => by simp [operatorElems]
  | a :: as => by
    rw [List.forall_mem_cons, ← operatorElems_returns ht, ← operatorElem_returns ht]
    simp only [operatorElems]
    cases operatorElem t a with
    | error e => simp
    | ok p =>
      cases operatorElems t as with
      | error e => simp
      | ok es => simp

theorem variableElems_returns {str : Term → String} {t : SasTask} : ∀ {xs : List Term},
    (∃ es, variableElems str t xs = .ok es) ↔ ∀ x ∈ xs, ∃ d, dlookup t.domains x = some d
  | [] => by simp [variableElems]
  | x :: xs => by
    rw [List.forall_mem_cons, ← variableElems_returns (str := str)]
    simp only [variableElems, SasTask.domain]
    cases dlookup t.domains x with
    | none => simp
    | some d =>
      cases variableElems str t xs with
      | error e => simp
      | ok es => simp

/-- C72, exceptions: the writer returns exactly if there is an action, every state variable has a domain, and every
transition, initial value and goal value is about a state variable and a value in its domain. -/
theorem C72_returns (str : Term → String) (t : SasTask) (ht : t.Indexed) :
    (∃ text, dumpSas str t = .ok text) ↔
    (∀ x ∈ t.stateVars.objects, ∃ d, dlookup t.domains x = some d) ∧ t.actions ≠ [] ∧
    (∀ a ∈ t.actions, ∀ x ∈ a.trans, KnownPair t x.1 x.2.1 ∧ KnownPair t x.1 x.2.2) ∧
    (∀ x ∈ t.initial, KnownPair t x.1 x.2) ∧ (∀ x ∈ t.goal, KnownPair t x.1 x.2) := by
  obtain ⟨os, hos⟩ := ht.vars
  have hk : t.stateVars.data.map (·.1) = t.stateVars.objects := by rw [hos]; exact (addAll_keys os).1
  have g1 := variableElems_returns (str := str) (t := t) (xs := t.stateVars.objects)
  have g2 := operatorElems_returns ht (as := t.actions)
  have g3 := elemList_returns ht (elem := pairElem) (l := t.initial)
  have g4 := elemList_returns ht (elem := pairElem) (l := t.goal)
  rw [← g1, ← g2, ← g3, ← g4]
  unfold dumpSas operatorsSection initialSection goalSection
  rw [hk]
  by_cases hne : t.actions = []
  · have hz : ¬ t.actions.length > 0 := by simp [hne]
    simp only [hz, if_false, hne, ne_eq, not_true_eq_false, false_and, and_false, iff_false]
    cases variableElems str t t.stateVars.objects <;> simp
  · have hz : t.actions.length > 0 := List.length_pos_iff.2 hne
    simp only [hz, if_true, hne, ne_eq, not_false_eq_true, true_and]
    cases variableElems str t t.stateVars.objects with
    | error e => simp
    | ok vs =>
      cases operatorElems t t.actions with
      | error e => simp
      | ok ops =>
        cases elemList t pairElem t.initial with
        | error e => simp
        | ok ini =>
          cases elemList t pairElem t.goal with
          | error e => simp
          | ok g => simp

/-- No name in the file has a line break. -/
def FdDoc.OneLine (d : FdDoc) : Prop :=
  (∀ v ∈ d.vars, '\n' ∉ v.1.toList ∧ ∀ x ∈ v.2, '\n' ∉ x.toList) ∧ ∀ o ∈ d.ops, '\n' ∉ o.1.toList

theorem fdBlock_oneLine {l : List String} (h : ∀ x ∈ l, '\n' ∉ x.toList) : ∀ x ∈ fdBlock l, '\n' ∉ x.toList := by
  unfold fdBlock
  split
  · intro x hx
    rw [List.mem_singleton] at hx
    subst hx
    simp
  · exact h

theorem fdPair_oneLine (p : Nat × Nat) : '\n' ∉ (fdPair p).toList := by
  simp only [fdPair, String.toList_append, List.mem_append, not_or]
  exact ⟨⟨natText_no (by decide) _, by decide⟩, natText_no (by decide) _⟩

theorem fdEff_oneLine (p : Nat × Nat) : '\n' ∉ (fdEff p).toList := by
  simp only [fdEff, String.toList_append, List.mem_append, not_or]
  exact ⟨⟨⟨by decide, natText_no (by decide) _⟩, by decide⟩, natText_no (by decide) _⟩

theorem oneLine_append {l l' : List String} (h : ∀ x ∈ l, '\n' ∉ x.toList) (h' : ∀ x ∈ l', '\n' ∉ x.toList) :
    ∀ x ∈ l ++ l', '\n' ∉ x.toList := fun x hx => (List.mem_append.1 hx).elim (h x) (h' x)

theorem oneLine_cons {x : String} {l : List String} (h : '\n' ∉ x.toList) (h' : ∀ x ∈ l, '\n' ∉ x.toList) :
    ∀ y ∈ x :: l, '\n' ∉ y.toList := fun y hy => (List.mem_cons.1 hy).elim (fun e => e ▸ h) (h' y)

theorem oneLine_nil : ∀ x ∈ ([] : List String), '\n' ∉ x.toList := fun x hx => by cases hx

theorem oneLine_map {α : Type} {f : α → String} (h : ∀ x, '\n' ∉ (f x).toList) (l : List α) : ∀ x ∈ l.map f, '\n' ∉ x.toList := by
  intro x hx
  obtain ⟨y, -, rfl⟩ := List.mem_map.1 hx
  exact h y

theorem oneLine_flatMap {α : Type} {f : α → List String} {l : List α} (h : ∀ x ∈ l, ∀ y ∈ f x, '\n' ∉ y.toList) :
    ∀ y ∈ l.flatMap f, '\n' ∉ y.toList := by
  intro y hy
  obtain ⟨x, hx, hy⟩ := List.mem_flatMap.1 hy
  exact h x hx y hy

theorem fdLines_oneLine {d : FdDoc} (h : d.OneLine) : ∀ x ∈ fdLines d, '\n' ∉ x.toList := by
  have nat := fun n : Nat => natText_no (c := '\n') (by decide) n
  unfold fdLines fdInitLines fdGoalLines
  refine oneLine_append (oneLine_append (oneLine_append (oneLine_append (oneLine_append ?_ ?_) ?_) ?_) (oneLine_append (oneLine_append ?_ ?_) ?_))
    (oneLine_append (oneLine_append ?_ ?_) ?_)
  · exact oneLine_cons (by decide) (oneLine_cons (by decide) (oneLine_cons (by decide) (oneLine_cons (by decide)
      (oneLine_cons (by decide) (oneLine_cons (by decide) (oneLine_cons (nat _) oneLine_nil))))))
  · refine fdBlock_oneLine (oneLine_flatMap fun v hv => ?_)
    obtain ⟨h1, h2⟩ := h.1 v hv
    unfold fdVarLines
    exact oneLine_append (oneLine_append (oneLine_cons (by decide) (oneLine_cons h1 (oneLine_cons (by decide) (oneLine_cons (nat _) oneLine_nil))))
      (fdBlock_oneLine h2)) (oneLine_cons (by decide) oneLine_nil)
  · exact oneLine_cons (by decide) (oneLine_cons (by decide) (oneLine_cons (by decide) (oneLine_cons (by decide)
      (oneLine_cons (by decide) (oneLine_cons (nat _) oneLine_nil)))))
  · refine oneLine_flatMap fun o ho => ?_
    unfold fdOpLines
    exact oneLine_append (oneLine_append (oneLine_append (oneLine_append (oneLine_cons (by decide) (oneLine_cons (h.2 o ho) (oneLine_cons (nat _) oneLine_nil)))
      (fdBlock_oneLine (oneLine_map (fun _ => fdPair_oneLine _) _))) (oneLine_cons (nat _) oneLine_nil))
      (fdBlock_oneLine (oneLine_map (fun _ => fdEff_oneLine _) _))) (oneLine_cons (by decide) (oneLine_cons (by decide) oneLine_nil))
  · exact oneLine_cons (by decide) (oneLine_cons (nat _) oneLine_nil)
  · exact fdBlock_oneLine (oneLine_map fdPair_oneLine _)
  · exact oneLine_cons (by decide) oneLine_nil
  · exact oneLine_cons (by decide) oneLine_nil
  · exact fdBlock_oneLine (oneLine_map fdPair_oneLine _)
  · exact oneLine_cons (by decide) oneLine_nil

/-- C72, the file can be read back in one way only: two documents with the same text are equal, if names have no line
breaks. -/
theorem C72_unique_partial (d d' : FdDoc) (h : d.OneLine) (h' : d'.OneLine) (he : fdText d = fdText d') : d = d' :=
  fdLines_inj (lines_inj (fdLines_oneLine h) (fdLines_oneLine h') he)

/-- The full statement of uniqueness. -/
def C72_unique_full : Prop := ∀ d d' : FdDoc, fdText d = fdText d' → d = d'

set_option maxRecDepth 40000 in
/-- With line breaks in names the text is ambiguous: a variable whose name goes on over several lines, or a variable whose
value does. -/
theorem C72_unique_refuted : ¬ C72_unique_full := by
  intro h
  have := h ⟨[("a\n-1\n1\nb", ["c"])], [], [], []⟩ ⟨[("a", ["b\n-1\n1\nc"])], [], [], []⟩ (by decide)
  simp at this

/-- C72, metric: the text does not depend on `unit_costs`, and always announces metric 1 (action costs). -/
theorem C72_metric_refuted (str : Term → String) (t : SasTask) (b : Bool) :
    dumpSas str { t with unitCosts := b } = dumpSas str t ∧ ({ t with unitCosts := true } : SasTask).metricType = "1" := by
  have h1 : ∀ xs, variableElems str { t with unitCosts := b } xs = variableElems str t xs := by
    intro xs
    induction xs with
    | nil => rfl
    | cons x xs ih => simp only [variableElems, ih]; rfl
  have h2 : ∀ elem l, elemList { t with unitCosts := b } elem l = elemList t elem l := by
    intro elem l
    induction l with
    | nil => rfl
    | cons x l ih => simp only [elemList, ih]; rfl
  have h3 : ∀ as, operatorElems { t with unitCosts := b } as = operatorElems t as := by
    intro as
    induction as with
    | nil => rfl
    | cons a as ih => simp only [operatorElems, operatorElem, ih, h2]
  refine ⟨?_, metricType_one _⟩
  unfold dumpSas operatorsSection initialSection goalSection
  simp only [h1, h2, h3, metricType_one]

/-- The goal section of Fast Downward's translator output format 4: the number of goal values comes first. -/
def FdGoalFormat (lines : List String) : Prop :=
  ∃ pairs : List (Nat × Nat), lines = "begin_goal" :: toString pairs.length :: (pairs.map fdPair ++ ["end_goal"])

/-- The initial state section of that format: one value for each variable, in order. -/
def FdInitFormat (lines : List String) : Prop :=
  ∃ values : List Nat, lines = "begin_initial_state" :: (values.map (fun v => toString v) ++ ["end_initial_state"])

/-- An effect line of that format, without conditions: variable, old value (or -1) and new value. -/
def FdEffFormat (line : String) : Prop :=
  ∃ (x : Nat) (old : Int) (new : Nat), line = "0 " ++ toString x ++ " " ++ toString old ++ " " ++ toString new

theorem natText_ne (n : Nat) : toString n ≠ "" := by
  intro h
  have : (toString n).toList = [] := by rw [h]; rfl
  simp only [toString, Nat.repr_eq_ofList_toDigits, String.toList_ofList] at this
  exact Nat.toDigits_ne_nil this

/-- The code violates the file format it claims to write (format 4): whatever the task, no written goal section, no written
effect, and no written initial state with a value is in that format. -/
theorem C72_format_refuted (d : FdDoc) : ¬ FdGoalFormat (fdGoalLines d) ∧ (d.init ≠ [] → ¬ FdInitFormat (fdInitLines d)) ∧
    ∀ p, ¬ FdEffFormat (fdEff p) := by
  have hd : ∀ (n : Nat) (p : Nat × Nat), fdPair p ≠ toString n := fun n p => fdPair_ne p _ (natText_no (by decide) n)
  refine ⟨?_, ?_, ?_⟩
  · rintro ⟨pairs, h⟩
    unfold fdGoalLines fdBlock at h
    cases hg : d.goal with
    | nil =>
      simp only [hg, List.map_nil, if_true, List.cons_append, List.nil_append, List.cons.injEq, true_and] at h
      exact natText_ne _ h.1.symm
    | cons p ps =>
      simp only [hg, List.map_cons, reduceCtorEq, if_false, List.cons_append, List.nil_append, List.cons.injEq, true_and] at h
      exact hd _ _ h.1
  · rintro hne ⟨values, h⟩
    unfold fdInitLines fdBlock at h
    cases hg : d.init with
    | nil => exact hne hg
    | cons p ps =>
      simp only [hg, List.map_cons, reduceCtorEq, if_false, List.cons_append, List.nil_append, List.cons.injEq, true_and] at h
      have hm : fdPair p ∈ values.map (fun v => toString v) ++ ["end_initial_state"] := by rw [← h]; simp
      rcases List.mem_append.1 hm with hm | hm
      · obtain ⟨v, -, e⟩ := List.mem_map.1 hm
        exact hd _ _ e.symm
      · rw [List.mem_singleton] at hm
        exact fdPair_ne p _ (by decide) hm
  · rintro p ⟨x, old, new, h⟩
    have h' : (fdEff p).toList = ("0 " ++ toString x ++ " " ++ toString old ++ " " ++ toString new).toList := by rw [h]
    simp only [fdEff, String.toList_append, List.append_assoc] at h'
    have e1 : ("0  " : String).toList = ['0', ' ', ' '] := rfl
    have e2 : ("0 " : String).toList = ['0', ' '] := rfl
    rw [e1, e2] at h'
    simp only [List.cons_append, List.nil_append, List.cons.injEq, true_and] at h'
    cases hx : (toString x).toList with
    | nil => exact natText_ne x (String.toList_injective (by rw [hx]; rfl))
    | cons c cs =>
      rw [hx, List.cons_append, List.cons.injEq] at h'
      exact natText_no (c := ' ') (by decide) x (by rw [hx, ← h'.1]; exact .head _)

/-! ### Example -/

def sasTerm (f : String) : Term := .app f []
def sasVal (n : String) : Term := .const (.str n) "object"

/-- A task with a variable `v` over `a, b`, and the action `go(a)` that changes it. -/
def sasSampleTask : SasTask where
  stateVars := SymIndex.empty.addAll [sasTerm "v"]
  domains := [(sasTerm "v", SymIndex.empty.addAll [sasVal "a", sasVal "b"])]
  actions := [⟨"go", [⟨.str "a", "object"⟩], [(sasTerm "v", sasVal "a", sasVal "b")]⟩]
  initial := [(sasTerm "v", sasVal "a")]
  goal := [(sasTerm "v", sasVal "b")]
  unitCosts := true

def sasStr : Term → String
  | .app f [] => f ++ "()"
  | .const n _ => n.render
  | _ => ""

set_option maxRecDepth 40000 in
/-- Non-vacuity: the text of the sample. -/
example : sasSampleTask.Indexed ∧ dumpSas sasStr sasSampleTask = .ok
    "begin_version\n4\nend_version\nbegin_metric\n1\nend_metric\n1\nbegin_variable\nv()\n-1\n2\na\nb\nend_variable\n0\nbegin_axiom_defaults\n0\nend_axiom_defaults\n0\n1\nbegin_operator\ngo(a)\n1\n0 0\n1\n0  0 1\n1\nend_operator\nbegin_initial_state\n1\n0 0\nend_initial_state\nbegin_goal\n0 1\nend_goal\n" := by
  refine ⟨⟨⟨_, rfl⟩, ?_⟩, by decide⟩
  intro x d h
  simp only [sasSampleTask, dlookup] at h
  split at h
  · cases h; exact ⟨_, rfl⟩
  · cases h

/-- An initial state may leave variables out, but the number written is that of all variables. -/
theorem C72_initial_refuted : ∃ t : SasTask, t.initial = [] ∧ t.stateVars.objects.length = 1 ∧ ∃ text, dumpSas sasStr t = .ok text :=
  ⟨{ sasSampleTask with initial := [] }, rfl, by decide, _, rfl⟩

end Tarski

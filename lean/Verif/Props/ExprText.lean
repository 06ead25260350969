import Verif.ExprText
import Mathlib.Tactic.Common
/-! C116: what is printed for a formula, an effect or an action determines it. -/
namespace Tarski

/-! ### Specification -/

/-- A name without parentheses, commas and blanks. -/
def ShownName (s : Text) : Prop := s ≠ [] ∧ ∀ c ∈ s, c ≠ '(' ∧ c ≠ ')' ∧ c ≠ ',' ∧ c ≠ ' '

/-- A stock of variables and constants that are told apart by their texts. -/
structure LeavesApart (A : Term → Prop) : Prop where
  leaf : ∀ t, A t → (∃ v, t = .var v) ∨ ∃ n s, t = .const n s
  name : ∀ t, A t → ShownName (showT t)
  apart : ∀ t u, A t → A u → showT t = showT u → t = u

mutual
/-- A term over the stock `A`. -/
inductive OverT (A : Term → Prop) : Term → Prop
  | leaf {t} : A t → OverT A t
  | app {f ts} : ShownName f.toList → f ≠ "ite/2" → (∀ t ∈ ts, OverT A t) → OverT A (.app f ts)
  | ite {c t e} : OverF A c → OverT A t → OverT A e → OverT A (.ite c t e)
/-- A formula over the stock `A`, of the shape that the constructors accept. -/
inductive OverF (A : Term → Prop) : Formula → Prop
  | top : OverF A .top
  | bot : OverF A .bot
  | cmp {c ts} : (∀ t ∈ ts, OverT A t) → OverF A (.atom (.cmp c) ts)
  | atom {p ts} : ShownName p.toList → p ∉ ["=", "!=", "<", "<=", ">", ">="] → (∀ t ∈ ts, OverT A t) → OverF A (.atom (.user p) ts)
  | not {k f} : OverF A f → OverF A (.comp k .not [f])
  | comp {k c fs} : c ≠ .not → 2 ≤ fs.length → (∀ f ∈ fs, OverF A f) → OverF A (.comp k c fs)
  | quant {q vs f} : vs ≠ [] → (∀ t ∈ vs, A t) → OverF A f → OverF A (.quant q vs f)
end

mutual
/-- The term with all containers made tuples. -/
def tuplesT : Term → Term
  | .var v => .var v
  | .const n s => .const n s
  | .app f ts => .app f (tuplesTs ts)
  | .ite c t e => .ite (tuplesF c) (tuplesT t) (tuplesT e)
/-- The terms with all containers made tuples. -/
def tuplesTs : List Term → List Term
  | [] => []
  | t :: ts => tuplesT t :: tuplesTs ts
/-- The formula with all containers made tuples. -/
def tuplesF : Formula → Formula
  | .top => .top
  | .bot => .bot
  | .atom p ts => .atom p (tuplesTs ts)
  | .comp _ c fs => .comp .tuple c (tuplesFs fs)
  | .quant q vs f => .quant q (tuplesTs vs) (tuplesF f)
/-- The formulas with all containers made tuples. -/
def tuplesFs : List Formula → List Formula
  | [] => []
  | f :: fs => tuplesF f :: tuplesFs fs
end

/-- An effect over the stock `A`. -/
inductive OverE (A : Term → Prop) : Effect → Prop
  | add {c p ts} : OverF A c → OverF A (.atom p ts) → OverE A (.add c p ts)
  | del {c p ts} : OverF A c → OverF A (.atom p ts) → OverE A (.del c p ts)
  | lit {c l} : OverF A c → OverF A l → OverE A (.lit c l)
  | assign {c f ts rhs} : OverF A c → ShownName f.toList → f ∉ ["ADD", "DEL", "LIT"] → (∀ t ∈ ts, OverT A t) → OverT A rhs → OverE A (.assign c f ts rhs)
  | univ {c vs es} : OverF A c → (∀ v ∈ vs, ShownName v.sym.toList ∧ ShownName v.sort.toList) → (∀ e ∈ es, OverE A e) → OverE A (.univ c vs es)

mutual
/-- The effect with all containers of subformulas made tuples. -/
def tuplesE : Effect → Effect
  | .add c p ts => .add (tuplesF c) p (tuplesTs ts)
  | .del c p ts => .del (tuplesF c) p (tuplesTs ts)
  | .lit c l => .lit (tuplesF c) (tuplesF l)
  | .assign c f ts rhs => .assign (tuplesF c) f (tuplesTs ts) (tuplesT rhs)
  | .univ c vs es => .univ (tuplesF c) vs (tuplesEs es)
/-- The effects with all containers of subformulas made tuples. -/
def tuplesEs : List Effect → List Effect
  | [] => []
  | e :: es => tuplesE e :: tuplesEs es
end

/-- An action over the stock `A`. -/
structure OverA (A : Term → Prop) (a : PAction) : Prop where
  name : ShownName a.name.toList
  params : ∀ v ∈ a.params, ShownName v.sym.toList ∧ ShownName v.sort.toList
  pre : OverF A a.pre
  effs : ∀ e ∈ a.effs, OverE A e

/-! ### Lemmas -/

/-- What may follow a word. -/
def StopsAt (r : Text) : Prop := ∀ c ∈ r.head?, c = '(' ∨ c = ')' ∨ c = ',' ∨ c = ' '
/-- What may follow an expression. -/
def Follows (r : Text) : Prop := ∀ c ∈ r.head?, c = ')' ∨ c = ',' ∨ c = ' '

theorem Follows.stops {r : Text} (h : Follows r) : StopsAt r := fun c hc => .inr (h c hc)

theorem word_split : ∀ {w v r s : Text}, (∀ c ∈ w, c ≠ '(' ∧ c ≠ ')' ∧ c ≠ ',' ∧ c ≠ ' ') → (∀ c ∈ v, c ≠ '(' ∧ c ≠ ')' ∧ c ≠ ',' ∧ c ≠ ' ') → StopsAt r → StopsAt s →
    w ++ r = v ++ s → w = v ∧ r = s
  | [], [], _, _, _, _, _, _, h => ⟨rfl, h⟩
  | [], c :: v, r, s, _, hv, hr, _, h => by
    have := hr c (by rw [show r = c :: (v ++ s) from h]; rfl)
    have := hv c (by simp)
    tauto
  | c :: w, [], r, s, hw, _, _, hs, h => by
    have := hs c (by rw [show s = c :: (w ++ r) from h.symm]; rfl)
    have := hw c (by simp)
    tauto
  | c :: w, d :: v, r, s, hw, hv, hr, hs, h => by
    injection h with h1 h2
    obtain ⟨e1, e2⟩ := word_split (fun c hc => hw c (by simp [hc])) (fun c hc => hv c (by simp [hc])) hr hs h2
    exact ⟨by rw [h1, e1], e2⟩

theorem ShownName.split {w v r s : Text} (hw : ShownName w) (hv : ShownName v) (hr : StopsAt r) (hs : StopsAt s) (h : w ++ r = v ++ s) : w = v ∧ r = s :=
  word_split hw.2 hv.2 hr hs h

theorem join_split {α : Type} (P : α → Text) (E : α → α → Prop) (sep close : Text) (hs : ∀ x, Follows (sep ++ x)) (hc : ∀ x, Follows (close ++ x)) (hd : ∀ x y, sep ++ x ≠ close ++ y) :
    ∀ {l l' : List α} {r s : Text}, l ≠ [] → l' ≠ [] → (∀ a ∈ l, ∀ b ∈ l', ∀ r s, Follows r → Follows s → P a ++ r = P b ++ s → E a b ∧ r = s) →
      joinWith sep (l.map P) ++ (close ++ r) = joinWith sep (l'.map P) ++ (close ++ s) → List.Forall₂ E l l' ∧ r = s
  | [], _, _, _, h, _, _, _ => absurd rfl h
  | _, [], _, _, _, h, _, _ => absurd rfl h
  | [a], [b], r, s, _, _, hu, h => by
    obtain ⟨e1, e2⟩ := hu a (by simp) b (by simp) _ _ (hc r) (hc s) (by simpa [joinWith] using h)
    exact ⟨.cons e1 .nil, List.append_cancel_left e2⟩
  | [a], b :: b' :: l', r, s, _, _, hu, h => by
    obtain ⟨-, e2⟩ := hu a (by simp) b (by simp) (close ++ r) (sep ++ (joinWith sep ((b' :: l').map P) ++ (close ++ s))) (hc r) (hs _) (by simpa [joinWith] using h)
    exact absurd e2.symm (hd _ _)
  | a :: a' :: l, [b], r, s, _, _, hu, h => by
    obtain ⟨-, e2⟩ := hu a (by simp) b (by simp) (sep ++ (joinWith sep ((a' :: l).map P) ++ (close ++ r))) (close ++ s) (hs _) (hc _) (by simpa [joinWith] using h)
    exact absurd e2 (hd _ _)
  | a :: a' :: l, b :: b' :: l', r, s, _, _, hu, h => by
    obtain ⟨e1, e2⟩ := hu a (by simp) b (by simp) (sep ++ (joinWith sep ((a' :: l).map P) ++ (close ++ r))) (sep ++ (joinWith sep ((b' :: l').map P) ++ (close ++ s))) (hs _) (hs _)
      (by simpa [joinWith] using h)
    obtain ⟨e3, e4⟩ := join_split P E sep close hs hc hd (l := a' :: l) (l' := b' :: l') (by simp) (by simp) (fun x hx y hy => hu x (List.mem_cons_of_mem _ hx) y (List.mem_cons_of_mem _ hy))
      (List.append_cancel_left e2)
    exact ⟨.cons e1 e3, e4⟩

/-- `join_split` for lists that may be empty, when no item starts like the closing text. -/
theorem join_split' {α : Type} (P : α → Text) (E : α → α → Prop) (sep close : Text) (hs : ∀ x, Follows (sep ++ x)) (hc : ∀ x, Follows (close ++ x)) (hd : ∀ x y, sep ++ x ≠ close ++ y)
    {l l' : List α} {r s : Text} (hn : ∀ a, a ∈ l ∨ a ∈ l' → ∀ x y, P a ++ x ≠ close ++ y) (hu : ∀ a ∈ l, ∀ b ∈ l', ∀ r s, Follows r → Follows s → P a ++ r = P b ++ s → E a b ∧ r = s)
    (h : joinWith sep (l.map P) ++ (close ++ r) = joinWith sep (l'.map P) ++ (close ++ s)) : List.Forall₂ E l l' ∧ r = s := by
  have start : ∀ {m : List α} {a} (r : Text), joinWith sep ((a :: m).map P) ++ (close ++ r) = P a ++ (joinWith sep ((a :: m).map P) ++ (close ++ r)).drop (P a).length := by
    intro m a r
    cases m <;> simp [joinWith]
  cases l with
  | nil => cases l' with
    | nil => exact ⟨.nil, by simpa [joinWith] using h⟩
    | cons b l' => rw [start] at h; exact absurd h.symm (hn b (.inr (by simp)) _ _)
  | cons a l => cases l' with
    | nil => rw [start] at h; exact absurd h (hn a (.inl (by simp)) _ _)
    | cons b l' => exact join_split P E sep close hs hc hd (by simp) (by simp) hu h

theorem showTs_map : ∀ ts : List Term, showTs ts = ts.map showT
  | [] => rfl
  | t :: ts => by simp [showTs, showTs_map ts]
theorem showFs_map : ∀ ts : List Formula, showFs ts = ts.map showF
  | [] => rfl
  | t :: ts => by simp [showFs, showFs_map ts]
theorem showEs_map : ∀ ts : List Effect, showEs ts = ts.map showE
  | [] => rfl
  | t :: ts => by simp [showEs, showEs_map ts]
theorem tuplesTs_map : ∀ ts : List Term, tuplesTs ts = ts.map tuplesT
  | [] => rfl
  | t :: ts => by simp [tuplesTs, tuplesTs_map ts]
theorem tuplesFs_map : ∀ ts : List Formula, tuplesFs ts = ts.map tuplesF
  | [] => rfl
  | t :: ts => by simp [tuplesFs, tuplesFs_map ts]

theorem forall2_map_eq {α β : Type} {f : α → β} : ∀ {l l' : List α}, List.Forall₂ (fun a b => f a = f b) l l' → l.map f = l'.map f
  | _, _, .nil => rfl
  | _, _, .cons h t => by simp [h, forall2_map_eq t]

/-- Texts read back in one way: `E` holds of any two of the expressions whose texts start in the same way. -/
def ReadBack {α : Type} (P : α → Text) (E : α → α → Prop) (a b : α) : Prop := ∀ r s, Follows r → Follows s → P a ++ r = P b ++ s → E a b ∧ r = s

variable {A : Term → Prop}

theorem leaf_tuples (hA : LeavesApart A) {t : Term} (h : A t) : tuplesT t = t := by
  rcases hA.leaf t h with ⟨v, rfl⟩ | ⟨n, s, rfl⟩ <;> simp [tuplesT]

theorem ite_name : ShownName iteShown := by unfold ShownName iteShown; decide

/-- The first word of a term, and what follows it. -/
theorem term_word (hA : LeavesApart A) {t : Term} (h : OverT A t) : ∃ w x, showT t = w ++ x ∧ ShownName w ∧ (A t ∧ w = showT t ∧ x = [] ∨ ¬ A t ∧ ∃ y, x = '(' :: y) := by
  cases h with
  | leaf h => exact ⟨showT t, [], by simp, hA.name t h, .inl ⟨h, rfl, rfl⟩⟩
  | @app f ts hf _ _ => exact ⟨f.toList, '(' :: (joinWith [',', ' '] (showTs ts) ++ [')']), by simp [showT], hf, .inr ⟨(fun h => by
      rcases hA.leaf _ h with ⟨v, h⟩ | ⟨n, s, h⟩ <;> cases h), _, rfl⟩⟩
  | @ite c t e _ _ _ => exact ⟨iteShown, '(' :: (joinWith [',', ' '] [showF c, showT t, showT e] ++ [')']), by simp [showT], ite_name, .inr ⟨(fun h => by
      rcases hA.leaf _ h with ⟨v, h⟩ | ⟨n, s, h⟩ <;> cases h), _, rfl⟩⟩

theorem term_head (hA : LeavesApart A) {t : Term} (h : OverT A t) (x : Text) : ∃ c y, showT t ++ x = c :: y ∧ c ≠ '(' ∧ c ≠ ')' ∧ c ≠ ',' ∧ c ≠ ' ' := by
  obtain ⟨w, z, e, hw, -⟩ := term_word hA h
  cases w with
  | nil => exact absurd rfl hw.1
  | cons c w => exact ⟨c, w ++ (z ++ x), by simp [e], hw.2 c (by simp)⟩

theorem stops_open (x : Text) : StopsAt ('(' :: x) := by intro c hc; cases hc; exact .inl rfl
theorem follows_close (x : Text) : Follows (')' :: x) := by intro c hc; cases hc; exact .inl rfl
theorem follows_comma (x : Text) : Follows (',' :: x) := by intro c hc; cases hc; exact .inr (.inl rfl)
theorem follows_blank (x : Text) : Follows (' ' :: x) := by intro c hc; cases hc; exact .inr (.inr rfl)
theorem not_follows_open (x : Text) : ¬ Follows ('(' :: x) := by intro h; have := h '(' rfl; revert this; decide

/-- Reading back a list of arguments. -/
theorem args_split (hA : LeavesApart A) {sep : Text} (hs : sep = [',', ' '] ∨ sep = [',']) {ts us : List Term} (ht : ∀ t ∈ ts, OverT A t) (hu : ∀ t ∈ us, OverT A t)
    (ih : ∀ t ∈ ts, ∀ u ∈ us, ReadBack showT (fun a b => tuplesT a = tuplesT b) t u) {r s : Text} (h : joinWith sep (showTs ts) ++ ')' :: r = joinWith sep (showTs us) ++ ')' :: s) :
    tuplesTs ts = tuplesTs us ∧ r = s := by
  rw [showTs_map, showTs_map] at h
  have := join_split' showT (fun a b => tuplesT a = tuplesT b) sep [')'] (by rcases hs with rfl | rfl <;> exact fun x => follows_comma _) (fun x => follows_close _)
    (by rcases hs with rfl | rfl <;> intro x y <;> simp) (r := r) (s := s) (l := ts) (l' := us) (by
      intro a ha x y e
      obtain ⟨c, z, e', hc⟩ := term_head hA (ha.elim (ht a) (hu a)) x
      rw [e'] at e
      injection e with e1 e2
      exact hc.2.1 e1) ih (by simpa using h)
  exact ⟨by rw [tuplesTs_map, tuplesTs_map]; exact forall2_map_eq this.1, this.2⟩

theorem psym_name {p : PSym} (h : ∀ n, p = .user n → ShownName n.toList) : ShownName (psymShown p) := by
  cases p with
  | user n => exact h n rfl
  | cmp c => cases c <;> (unfold ShownName psymShown Cmp.text; decide)

/-- The symbol of an atom over the stock -/
def SymOK : PSym → Prop
  | .cmp _ => True
  | .user p => ShownName p.toList ∧ p ∉ ["=", "!=", "<", "<=", ">", ">="]

theorem SymOK.name {p : PSym} (h : SymOK p) : ShownName (psymShown p) := psym_name (by rintro n rfl; exact h.1)

theorem cmp_reserved {d : Cmp} {n : String} (h : n.toList = d.text) : n ∈ ["=", "!=", "<", "<=", ">", ">="] := by
  have : n = String.ofList d.text := by rw [← h]; simp
  rw [this]
  cases d <;> decide

theorem psym_inj {p q : PSym} (hp : SymOK p) (hq : SymOK q) (h : psymShown p = psymShown q) : p = q := by
  cases p with
  | user n => cases q with
    | user m => rw [show n = m from String.toList_injective h]
    | cmp d => exact absurd (cmp_reserved h) hp.2
  | cmp c => cases q with
    | user m => exact absurd (cmp_reserved h.symm) hq.2
    | cmp d => cases c <;> cases d <;> first | rfl | exact absurd h (by decide)

theorem quant_name (q : Quant) : ShownName q.text := by cases q <;> (unfold ShownName Quant.text; decide)

theorem atom_parts {p : PSym} {ts : List Term} (h : OverF A (.atom p ts)) : SymOK p ∧ ∀ t ∈ ts, OverT A t := by
  cases h with
  | cmp h => exact ⟨trivial, h⟩
  | atom h1 h2 h3 => exact ⟨⟨h1, h2⟩, h3⟩

theorem show_atom (p : PSym) (ts : List Term) (r : Text) : showF (.atom p ts) ++ r = psymShown p ++ '(' :: (joinWith [','] (showTs ts) ++ ')' :: r) := by simp [showF]
theorem show_quant (q : Quant) (vs : List Term) (f : Formula) (r : Text) : showF (.quant q vs f) ++ r = q.text ++ ' ' :: (joinWith [',', ' '] (showTs vs) ++ ([' ', ':', ' ', '('] ++ (showF f ++ ')' :: r))) := by
  simp [showF]
theorem comp_open (k : Kind) (c : Conn) (fs : List Formula) : ∃ y, showF (.comp k c fs) = '(' :: y := by
  simp only [showF]
  cases c <;> rcases showFs fs with _ | ⟨a, _ | ⟨b, l⟩⟩ <;> exact ⟨_, rfl⟩
theorem show_not (k : Kind) (f : Formula) (r : Text) : showF (.comp k .not [f]) ++ r = '(' :: (['n', 'o', 't'] ++ ' ' :: (showF f ++ ')' :: r)) := by simp [showF, showFs, compShown, Conn.text]
theorem show_comp (k : Kind) {c : Conn} (hc : c ≠ .not) (fs : List Formula) (r : Text) : showF (.comp k c fs) ++ r = '(' :: (joinWith (' ' :: c.text ++ [' ']) (fs.map showF) ++ ([')'] ++ r)) := by
  cases c with
  | not => exact absurd rfl hc
  | and => simp [showF, showFs_map, compShown]
  | or => simp [showF, showFs_map, compShown]

theorem name_head {w : Text} (h : ShownName w) {x y : Text} : w ++ x ≠ '(' :: y := by
  cases w with
  | nil => exact absurd rfl h.1
  | cons c w => intro e; injection e with e1 _; exact (h.2 c (by simp)).1 e1

/-- What a formula that starts with a word followed by `x` is. -/
theorem formula_word {g : Formula} (hg : OverF A g) {w x s : Text} (hw : ShownName w) (hx : StopsAt x) (hs : Follows s) (h : w ++ x = showF g ++ s) :
    (g = .top ∧ w = ['T'] ∧ x = s) ∨ (g = .bot ∧ w = ['F'] ∧ x = s) ∨ (∃ p ts, g = .atom p ts ∧ w = psymShown p ∧ x = '(' :: (joinWith [','] (showTs ts) ++ ')' :: s)) ∨
      ∃ q vs f, g = .quant q vs f ∧ w = q.text ∧ x = ' ' :: (joinWith [',', ' '] (showTs vs) ++ ([' ', ':', ' ', '('] ++ (showF f ++ ')' :: s))) := by
  have hT : ∀ c : Char, c = 'T' ∨ c = 'F' → ShownName [c] := by
    rintro c (rfl | rfl) <;> (unfold ShownName; decide)
  cases g with
  | top =>
    obtain ⟨e1, e2⟩ := hw.split (hT 'T' (.inl rfl)) hx hs.stops h
    exact .inl ⟨rfl, e1, e2⟩
  | bot =>
    obtain ⟨e1, e2⟩ := hw.split (hT 'F' (.inr rfl)) hx hs.stops h
    exact .inr (.inl ⟨rfl, e1, e2⟩)
  | atom p ts =>
    rw [show_atom] at h
    obtain ⟨e1, e2⟩ := hw.split (atom_parts hg).1.name hx (stops_open _) h
    exact .inr (.inr (.inl ⟨p, ts, rfl, e1, e2⟩))
  | comp k c fs =>
    obtain ⟨y, hy⟩ := comp_open k c fs
    rw [hy] at h
    exact absurd h (name_head hw)
  | quant q vs f =>
    rw [show_quant] at h
    obtain ⟨e1, e2⟩ := hw.split (quant_name q) hx (follows_blank _).stops h
    exact .inr (.inr (.inr ⟨q, vs, f, rfl, e1, e2⟩))

theorem formula_not_not {g : Formula} (hg : OverF A g) {x s : Text} (hs : Follows s) : showF g ++ s ≠ ['n', 'o', 't'] ++ ' ' :: x := by
  intro h
  have hw : ShownName ['n', 'o', 't'] := by unfold ShownName; decide
  rcases formula_word hg hw (follows_blank _).stops hs h.symm with ⟨-, e, -⟩ | ⟨-, e, -⟩ | ⟨p, ts, -, -, e⟩ | ⟨q, vs, f, -, e, -⟩
  · exact absurd e (by decide)
  · exact absurd e (by decide)
  · exact absurd e (by simp)
  · cases q <;> exact absurd e (by decide)

theorem quant_inj {q q' : Quant} (h : q.text = q'.text) : q = q' := by cases q <;> cases q' <;> first | rfl | exact absurd h (by decide)

theorem conn_sep (c : Conn) (x : Text) : Follows ((' ' :: c.text ++ [' ']) ++ x) := follows_blank _

theorem read_back (hA : LeavesApart A) : ∀ n : Nat, (∀ t u, sizeOf t < n → OverT A t → OverT A u → ReadBack showT (fun a b => tuplesT a = tuplesT b) t u) ∧
    (∀ f g, sizeOf f < n → OverF A f → OverF A g → ReadBack showF (fun a b => tuplesF a = tuplesF b) f g) := by
  intro n
  induction n with
  | zero => exact ⟨fun _ _ h => absurd h (by omega), fun _ _ h => absurd h (by omega)⟩
  | succ n ih =>
    obtain ⟨iht, ihf⟩ := ih
    constructor
    · intro t u hn ht hu r s hr hs h
      cases ht with
      | leaf ht =>
        cases hu with
        | leaf hu =>
          obtain ⟨e1, e2⟩ := (hA.name t ht).split (hA.name u hu) hr.stops hs.stops h
          exact ⟨by rw [hA.apart t u ht hu e1], e2⟩
        | @app f ts hf _ _ =>
          rw [show showT (.app f ts) ++ s = f.toList ++ '(' :: (joinWith [',', ' '] (showTs ts) ++ ')' :: s) by simp [showT]] at h
          obtain ⟨-, e2⟩ := (hA.name t ht).split hf hr.stops (stops_open _) h
          exact absurd (e2 ▸ hr) (not_follows_open _)
        | @ite c a b _ _ _ =>
          rw [show showT (.ite c a b) ++ s = iteShown ++ '(' :: (joinWith [',', ' '] [showF c, showT a, showT b] ++ ')' :: s) by simp [showT]] at h
          obtain ⟨-, e2⟩ := (hA.name t ht).split ite_name hr.stops (stops_open _) h
          exact absurd (e2 ▸ hr) (not_follows_open _)
      | @app f ts hf hf' hts =>
        rw [show showT (.app f ts) ++ r = f.toList ++ '(' :: (joinWith [',', ' '] (showTs ts) ++ ')' :: r) by simp [showT]] at h
        cases hu with
        | leaf hu =>
          obtain ⟨-, e2⟩ := hf.split (hA.name u hu) (stops_open _) hs.stops h
          exact absurd (e2 ▸ hs) (not_follows_open _)
        | @app f' ts' hg _ hts' =>
          rw [show showT (.app f' ts') ++ s = f'.toList ++ '(' :: (joinWith [',', ' '] (showTs ts') ++ ')' :: s) by simp [showT]] at h
          obtain ⟨e1, e2⟩ := hf.split hg (stops_open _) (stops_open _) h
          injection e2 with _ e2
          obtain ⟨e3, e4⟩ := args_split hA (.inl rfl) hts hts' (fun a ha b hb => iht a b (by
            have := List.sizeOf_lt_of_mem ha
            simp only [Term.app.sizeOf_spec] at hn
            omega) (hts a ha) (hts' b hb)) e2
          exact ⟨by simp [tuplesT, e3, String.toList_injective e1], e4⟩
        | @ite c a b _ _ _ =>
          rw [show showT (.ite c a b) ++ s = iteShown ++ '(' :: (joinWith [',', ' '] [showF c, showT a, showT b] ++ ')' :: s) by simp [showT]] at h
          obtain ⟨e1, -⟩ := hf.split ite_name (stops_open _) (stops_open _) h
          exact absurd (String.toList_injective (s₂ := "ite/2") (by rw [e1]; decide)) hf'
      | @ite c a b hc ha hb =>
        rw [show showT (.ite c a b) ++ r = iteShown ++ '(' :: (joinWith [',', ' '] [showF c, showT a, showT b] ++ ')' :: r) by simp [showT]] at h
        simp only [Term.ite.sizeOf_spec] at hn
        cases hu with
        | leaf hu =>
          obtain ⟨-, e2⟩ := ite_name.split (hA.name u hu) (stops_open _) hs.stops h
          exact absurd (e2 ▸ hs) (not_follows_open _)
        | @app f' ts' hg hg' _ =>
          rw [show showT (.app f' ts') ++ s = f'.toList ++ '(' :: (joinWith [',', ' '] (showTs ts') ++ ')' :: s) by simp [showT]] at h
          obtain ⟨e1, -⟩ := ite_name.split hg (stops_open _) (stops_open _) h
          exact absurd (String.toList_injective (s₂ := "ite/2") (by rw [← e1]; decide)) hg'
        | @ite c' a' b' hc' ha' hb' =>
          have h' : showF c ++ ',' :: (' ' :: (showT a ++ ',' :: (' ' :: (showT b ++ ')' :: r)))) = showF c' ++ ',' :: (' ' :: (showT a' ++ ',' :: (' ' :: (showT b' ++ ')' :: s)))) := by
            simpa [showT, joinWith, iteShown] using h
          obtain ⟨e1, e2⟩ := ihf c c' (by omega) hc hc' _ _ (follows_comma _) (follows_comma _) h'
          simp only [List.cons.injEq, true_and] at e2
          obtain ⟨e3, e4⟩ := iht a a' (by omega) ha ha' _ _ (follows_comma _) (follows_comma _) e2
          simp only [List.cons.injEq, true_and] at e4
          obtain ⟨e5, e6⟩ := iht b b' (by omega) hb hb' _ _ (follows_close _) (follows_close _) e4
          simp only [List.cons.injEq, true_and] at e6
          exact ⟨by simp [tuplesT, e1, e3, e5], e6⟩
    · intro f g hn hf hg r s hr hs h
      cases f with
      | top =>
        rcases formula_word hg (w := ['T']) (by unfold ShownName; decide) hr.stops hs h with ⟨rfl, -, e⟩ | ⟨-, e, -⟩ | ⟨p, ts, -, -, e⟩ | ⟨q, vs, f, -, e, -⟩
        · exact ⟨rfl, e⟩
        · exact absurd e (by decide)
        · exact absurd (e ▸ hr) (not_follows_open _)
        · cases q <;> exact absurd e (by decide)
      | bot =>
        rcases formula_word hg (w := ['F']) (by unfold ShownName; decide) hr.stops hs h with ⟨-, e, -⟩ | ⟨rfl, -, e⟩ | ⟨p, ts, -, -, e⟩ | ⟨q, vs, f, -, e, -⟩
        · exact absurd e (by decide)
        · exact ⟨rfl, e⟩
        · exact absurd (e ▸ hr) (not_follows_open _)
        · cases q <;> exact absurd e (by decide)
      | atom p ts =>
        rw [show_atom] at h
        rcases formula_word hg (atom_parts hf).1.name (stops_open _) hs h with ⟨-, -, e⟩ | ⟨-, -, e⟩ | ⟨p', ts', rfl, e, e'⟩ | ⟨q, vs, f, -, -, e⟩
        · exact absurd (e ▸ hs) (not_follows_open _)
        · exact absurd (e ▸ hs) (not_follows_open _)
        · injection e' with _ e'
          obtain ⟨e3, e4⟩ := args_split hA (.inr rfl) (atom_parts hf).2 (atom_parts hg).2 (fun a ha b hb => iht a b (by
            have := List.sizeOf_lt_of_mem ha
            simp only [Formula.atom.sizeOf_spec] at hn
            omega) ((atom_parts hf).2 a ha) ((atom_parts hg).2 b hb)) e'
          exact ⟨by simp [tuplesF, e3, psym_inj (atom_parts hf).1 (atom_parts hg).1 e], e4⟩
        · exact absurd e (by simp)
      | quant q vs f =>
        rw [show_quant] at h
        rcases formula_word hg (quant_name q) (follows_blank _).stops hs h with ⟨-, e, -⟩ | ⟨-, e, -⟩ | ⟨p', ts', -, -, e⟩ | ⟨q', vs', f', rfl, e, e'⟩
        · cases q <;> exact absurd e (by decide)
        · cases q <;> exact absurd e (by decide)
        · exact absurd e (by simp)
        · injection e' with _ e'
          cases hf with
          | quant h1 h2 h3 =>
            cases hg with
            | quant g1 g2 g3 =>
              rw [showTs_map, showTs_map] at e'
              obtain ⟨e3, e4⟩ := join_split showT (fun a b => tuplesT a = tuplesT b) [',', ' '] [' ', ':', ' ', '('] (fun _ => follows_comma _) (fun _ => follows_blank _) (by intro x y; simp)
                h1 g1 (fun a ha b hb r s hr hs h => by
                  obtain ⟨e1, e2⟩ := (hA.name a (h2 a ha)).split (hA.name b (g2 b hb)) hr.stops hs.stops h
                  exact ⟨by rw [hA.apart a b (h2 a ha) (g2 b hb) e1], e2⟩) e'
              obtain ⟨e5, e6⟩ := ihf f f' (by simp only [Formula.quant.sizeOf_spec] at hn; omega) h3 g3 _ _ (follows_close _) (follows_close _) e4
              injection e6 with _ e6
              exact ⟨by simp [tuplesF, tuplesTs_map, forall2_map_eq e3, e5, quant_inj e], e6⟩
      | comp k c fs =>
        have hg' : ∃ k' c' fs', g = .comp k' c' fs' := by
          obtain ⟨y, hy⟩ := comp_open k c fs
          rw [hy] at h
          have key : ∀ {w x : Text}, ShownName w → '(' :: (y ++ r) = w ++ x → False := fun hw e => name_head hw e.symm
          cases g with
          | comp k' c' fs' => exact ⟨k', c', fs', rfl⟩
          | top => exact (key (w := ['T']) (by unfold ShownName; decide) h).elim
          | bot => exact (key (w := ['F']) (by unfold ShownName; decide) h).elim
          | atom p ts => rw [show_atom] at h; exact (key (atom_parts hg).1.name h).elim
          | quant q vs f => rw [show_quant] at h; exact (key (quant_name q) h).elim
        obtain ⟨k', c', fs', rfl⟩ := hg'
        simp only [Formula.comp.sizeOf_spec] at hn
        cases hf with
        | @not _ f1 h1 =>
          rw [show_not] at h
          cases hg with
          | @not _ g1 h2 =>
            rw [show_not] at h
            simp only [List.cons.injEq, true_and, List.cons_append, List.nil_append] at h
            obtain ⟨e1, e2⟩ := ihf f1 g1 (by simp only [List.cons.sizeOf_spec] at hn; omega) h1 h2 _ _ (follows_close _) (follows_close _) h
            injection e2 with _ e2
            exact ⟨by simp [tuplesF, tuplesFs, e1], e2⟩
          | comp hc hl hgs =>
            rw [show_comp k' hc] at h
            injection h with _ h
            rcases fs' with _ | ⟨b, _ | ⟨b', l⟩⟩
            · simp at hl
            · simp at hl
            · exact absurd h.symm (by
                have := formula_not_not (hgs b (by simp)) (x := showF f1 ++ ')' :: r) (s := (' ' :: c'.text ++ [' ']) ++ (joinWith (' ' :: c'.text ++ [' ']) ((b' :: l).map showF) ++ ([')'] ++ s))) (follows_blank _)
                simpa [joinWith] using this)
        | comp hc hl hfs =>
          rw [show_comp k hc] at h
          cases hg with
          | @not _ g1 h2 =>
            rw [show_not] at h
            injection h with _ h
            rcases fs with _ | ⟨b, _ | ⟨b', l⟩⟩
            · simp at hl
            · simp at hl
            · exact absurd h (by
                have := formula_not_not (hfs b (by simp)) (x := showF g1 ++ ')' :: s) (s := (' ' :: c.text ++ [' ']) ++ (joinWith (' ' :: c.text ++ [' ']) ((b' :: l).map showF) ++ ([')'] ++ r))) (follows_blank _)
                simpa [joinWith] using this)
          | comp hc' hl' hgs =>
            rw [show_comp k' hc'] at h
            injection h with _ h
            have hu : ∀ a ∈ fs, ∀ b ∈ fs', ReadBack showF (fun a b => tuplesF a = tuplesF b) a b := fun a ha b hb => ihf a b (by
              have := List.sizeOf_lt_of_mem ha
              omega) (hfs a ha) (hgs b hb)
            have hcc : c = c' := by
              rcases fs with _ | ⟨a, _ | ⟨a', l⟩⟩
              · simp at hl
              · simp at hl
              · rcases fs' with _ | ⟨b, _ | ⟨b', l'⟩⟩
                · simp at hl'
                · simp at hl'
                · obtain ⟨-, e2⟩ := hu a (by simp) b (by simp) ((' ' :: c.text ++ [' ']) ++ (joinWith (' ' :: c.text ++ [' ']) ((a' :: l).map showF) ++ ([')'] ++ r)))
                    ((' ' :: c'.text ++ [' ']) ++ (joinWith (' ' :: c'.text ++ [' ']) ((b' :: l').map showF) ++ ([')'] ++ s))) (follows_blank _) (follows_blank _) (by simpa [joinWith] using h)
                  cases c <;> cases c' <;> first | rfl | exact absurd rfl hc | exact absurd rfl hc' | simp [Conn.text] at e2
            subst hcc
            obtain ⟨e1, e2⟩ := join_split showF (fun a b => tuplesF a = tuplesF b) (' ' :: c.text ++ [' ']) [')'] (conn_sep c) (fun _ => follows_close _) (by intro x y; simp)
              (by rintro rfl; simp at hl) (by rintro rfl; simp at hl') hu h
            exact ⟨by simp [tuplesF, tuplesFs_map, forall2_map_eq e1], e2⟩

theorem tuplesEs_map : ∀ ts : List Effect, tuplesEs ts = ts.map tuplesE
  | [] => rfl
  | t :: ts => by simp [tuplesEs, tuplesEs_map ts]

mutual
theorem showT_tuples : ∀ t : Term, showT (tuplesT t) = showT t
  | .var _ => rfl
  | .const _ _ => rfl
  | .app f ts => by simp [tuplesT, showT, showTs_tuples ts]
  | .ite c t e => by simp [tuplesT, showT, showF_tuples c, showT_tuples t, showT_tuples e]
theorem showTs_tuples : ∀ ts : List Term, showTs (tuplesTs ts) = showTs ts
  | [] => rfl
  | t :: ts => by simp [tuplesTs, showTs, showT_tuples t, showTs_tuples ts]
theorem showF_tuples : ∀ f : Formula, showF (tuplesF f) = showF f
  | .top => rfl
  | .bot => rfl
  | .atom p ts => by simp [tuplesF, showF, showTs_tuples ts]
  | .comp k c fs => by simp [tuplesF, showF, showFs_tuples fs]
  | .quant q vs f => by simp [tuplesF, showF, showTs_tuples vs, showF_tuples f]
theorem showFs_tuples : ∀ ts : List Formula, showFs (tuplesFs ts) = showFs ts
  | [] => rfl
  | t :: ts => by simp [tuplesFs, showFs, showF_tuples t, showFs_tuples ts]
end

mutual
theorem showE_tuples : ∀ e : Effect, showE (tuplesE e) = showE e
  | .add c p ts => by simp [tuplesE, showE, showF, showTs_tuples, showF_tuples]
  | .del c p ts => by simp [tuplesE, showE, showF, showTs_tuples, showF_tuples]
  | .lit c l => by simp [tuplesE, showE, showF_tuples]
  | .assign c f ts rhs => by simp [tuplesE, showE, showT, showTs_tuples, showF_tuples, showT_tuples]
  | .univ c vs es => by simp [tuplesE, showE, showF_tuples, showEs_tuples es]
theorem showEs_tuples : ∀ es : List Effect, showEs (tuplesEs es) = showEs es
  | [] => rfl
  | e :: es => by simp [tuplesEs, showEs, showE_tuples e, showEs_tuples es]
end

theorem follows_nil : Follows [] := by intro c hc; cases hc

/-- **C116, terms and formulas.** Over variables, constants and symbols that are told apart by their texts, two terms have the same text exactly when
they are the same, and two formulas have the same text exactly when they are the same up to the Python container of the subformulas. -/
theorem C116_formula_partial (hA : LeavesApart A) {f g : Formula} (hf : OverF A f) (hg : OverF A g) : showF f = showF g ↔ tuplesF f = tuplesF g :=
  ⟨fun h => ((read_back hA _).2 f g (Nat.lt_succ_self _) hf hg [] [] follows_nil follows_nil (by rw [h])).1, fun h => by rw [← showF_tuples f, h, showF_tuples]⟩

/-- C116 for terms. -/
theorem C116_term_partial (hA : LeavesApart A) {t u : Term} (ht : OverT A t) (hu : OverT A u) : showT t = showT u ↔ tuplesT t = tuplesT u :=
  ⟨fun h => ((read_back hA _).1 t u (Nat.lt_succ_self _) ht hu [] [] follows_nil follows_nil (by rw [h])).1, fun h => by rw [← showT_tuples t, h, showT_tuples]⟩

theorem sameF (hA : LeavesApart A) {f g : Formula} (hf : OverF A f) (hg : OverF A g) {r s : Text} (hr : Follows r) (hs : Follows s) (h : showF f ++ r = showF g ++ s) :
    tuplesF f = tuplesF g ∧ r = s := (read_back hA _).2 f g (Nat.lt_succ_self _) hf hg r s hr hs h
theorem sameT (hA : LeavesApart A) {t u : Term} (ht : OverT A t) (hu : OverT A u) {r s : Text} (hr : Follows r) (hs : Follows s) (h : showT t ++ r = showT u ++ s) :
    tuplesT t = tuplesT u ∧ r = s := (read_back hA _).1 t u (Nat.lt_succ_self _) ht hu r s hr hs h

/-- The first word after the arrow in the text of an effect. -/
def effWord : Effect → Text
  | .add _ _ _ => ['A', 'D', 'D']
  | .del _ _ _ => ['D', 'E', 'L']
  | .lit _ _ => ['L', 'I', 'T']
  | .assign _ f _ _ => f.toList
  | .univ _ _ _ => Quant.forall.text

/-- What follows that word. -/
def effRest (r : Text) : Effect → Text
  | .add _ p ts => '(' :: (showF (.atom p ts) ++ ')' :: ')' :: r)
  | .del _ p ts => '(' :: (showF (.atom p ts) ++ ')' :: ')' :: r)
  | .lit _ l => '(' :: (showF l ++ ')' :: ')' :: r)
  | .assign _ f ts rhs => '(' :: (joinWith [',', ' '] (showTs ts) ++ ')' :: ' ' :: ':' :: '=' :: ' ' :: (showT rhs ++ ')' :: r))
  | .univ _ vs es => ' ' :: '(' :: (varsRepr vs ++ (')' :: ' ' :: ':' :: ' ' :: '(' :: (joinWith [',', ' '] (showEs es) ++ ([')'] ++ ')' :: r))))

theorem effRest_stops (e : Effect) (r : Text) : StopsAt (effRest r e) := by
  cases e <;> first | exact stops_open _ | exact (follows_blank _).stops

theorem showE_tail (e : Effect) (r : Text) : showE e ++ r = '(' :: (showF e.cond ++ ' ' :: ('-' :: '>' :: ' ' :: (effWord e ++ effRest r e))) := by
  cases e <;> simp [showE, effWord, effRest, Effect.cond, arrowShown, showT]

theorem OverE.cond {e : Effect} (h : OverE A e) : OverF A e.cond := by cases h <;> assumption

theorem word3 : ShownName ['A', 'D', 'D'] ∧ ShownName ['D', 'E', 'L'] ∧ ShownName ['L', 'I', 'T'] := by unfold ShownName; decide

theorem reserved3 {f : String} {w : Text} (hw : w = ['A', 'D', 'D'] ∨ w = ['D', 'E', 'L'] ∨ w = ['L', 'I', 'T']) (h : f.toList = w) : f ∈ ["ADD", "DEL", "LIT"] := by
  have : f = String.ofList w := by rw [← h]; simp
  rw [this]
  rcases hw with rfl | rfl | rfl <;> decide

theorem effWord_name {e : Effect} (h : OverE A e) : ShownName (effWord e) := by
  cases h with
  | add _ _ => exact word3.1
  | del _ _ => exact word3.2.1
  | lit _ _ => exact word3.2.2
  | assign _ h _ _ _ => exact h
  | univ _ _ _ => exact quant_name .forall

theorem varRepr_read {v w : Var} (hv : ShownName v.sym.toList ∧ ShownName v.sort.toList) (hw : ShownName w.sym.toList ∧ ShownName w.sort.toList) {r s : Text}
    (h : varRepr v ++ r = varRepr w ++ s) : v = w ∧ r = s := by
  obtain ⟨e1, e2⟩ := hv.1.split hw.1 (r := ' ' :: '(' :: (v.sort.toList ++ ')' :: r)) (s := ' ' :: '(' :: (w.sort.toList ++ ')' :: s)) (follows_blank _).stops (follows_blank _).stops
    (by simpa [varRepr] using h)
  simp only [List.cons.injEq, true_and] at e2
  obtain ⟨e3, e4⟩ := hv.2.split hw.2 (follows_close _).stops (follows_close _).stops e2
  simp only [List.cons.injEq, true_and] at e4
  exact ⟨by cases v; cases w; exact congr (congrArg Var.mk (String.toList_injective e1)) (String.toList_injective e3), e4⟩

theorem vars_head : ∀ {vs : List Var} (r : Text), vs ≠ [] → (∀ v ∈ vs, ShownName v.sym.toList ∧ ShownName v.sort.toList) →
    ∃ w y, joinWith [',', ' '] (vs.map varRepr) ++ r = w ++ ' ' :: y ∧ ShownName w
  | [], _, h, _ => absurd rfl h
  | [v], r, _, hv => ⟨v.sym.toList, '(' :: (v.sort.toList ++ ')' :: r), by simp [joinWith, varRepr], (hv v (by simp)).1⟩
  | v :: v' :: vs, r, _, hv => ⟨v.sym.toList, '(' :: (v.sort.toList ++ ')' :: (',' :: ' ' :: (joinWith [',', ' '] ((v' :: vs).map varRepr) ++ r))), by simp [joinWith, varRepr], (hv v (by simp)).1⟩

theorem follows_bracket_name : ShownName [']'] := by unfold ShownName; decide

/-- Reading back the list of the variables of a universal effect. -/
theorem vars_read {vs us : List Var} (hv : ∀ v ∈ vs, ShownName v.sym.toList ∧ ShownName v.sort.toList) (hu : ∀ v ∈ us, ShownName v.sym.toList ∧ ShownName v.sort.toList) {r s : Text}
    (h : varsRepr vs ++ ')' :: r = varsRepr us ++ ')' :: s) : vs = us ∧ r = s := by
  have h' : joinWith [',', ' '] (vs.map varRepr) ++ ([']'] ++ ')' :: r) = joinWith [',', ' '] (us.map varRepr) ++ ([']'] ++ ')' :: s) := by simpa [varsRepr] using h
  have one : ∀ {ws : List Var} {r s : Text}, (∀ v ∈ ws, ShownName v.sym.toList ∧ ShownName v.sort.toList) → ([']'] ++ ')' :: r) = joinWith [',', ' '] (ws.map varRepr) ++ s → ws = [] := by
    intro ws r s hw e
    by_contra hne
    obtain ⟨w, y, e', hname⟩ := vars_head s hne hw
    rw [e'] at e
    obtain ⟨-, e2⟩ := follows_bracket_name.split hname (follows_close _).stops (follows_blank _).stops e
    simp at e2
  clear h
  induction vs generalizing us with
  | nil =>
    have := one hu (by simpa [joinWith] using h')
    subst this
    simpa [joinWith] using h'
  | cons v vs ih =>
    cases us with
    | nil => exact absurd (one hv (by simpa [joinWith] using h'.symm)) (by simp)
    | cons u us =>
      have split : ∀ {v : Var} {vs : List Var} (x : Text), ∃ z, joinWith [',', ' '] ((v :: vs).map varRepr) ++ x = varRepr v ++ z ∧ (vs = [] ∧ z = x ∨ vs ≠ [] ∧ z = ',' :: ' ' :: (joinWith [',', ' '] (vs.map varRepr) ++ x)) := by
        intro v vs x
        cases vs with
        | nil => exact ⟨x, by simp [joinWith], .inl ⟨rfl, rfl⟩⟩
        | cons w ws => exact ⟨',' :: ' ' :: (joinWith [',', ' '] ((w :: ws).map varRepr) ++ x), by simp [joinWith], .inr ⟨by simp, rfl⟩⟩
      obtain ⟨z1, e1, c1⟩ := split (v := v) (vs := vs) ([']'] ++ ')' :: r)
      obtain ⟨z2, e2, c2⟩ := split (v := u) (vs := us) ([']'] ++ ')' :: s)
      rw [e1, e2] at h'
      obtain ⟨e3, e4⟩ := varRepr_read (hv v (by simp)) (hu u (by simp)) h'
      rcases c1 with ⟨rfl, rfl⟩ | ⟨n1, rfl⟩ <;> rcases c2 with ⟨rfl, rfl⟩ | ⟨n2, rfl⟩
      · exact ⟨by rw [e3], by simpa using e4⟩
      · exact absurd e4 (by simp)
      · exact absurd e4 (by simp)
      · simp only [List.cons.injEq, true_and] at e4
        obtain ⟨e5, e6⟩ := ih (fun v h => hv v (by simp [h])) (fun v h => hu v (by simp [h])) e4
        exact ⟨by rw [e3, e5], e6⟩

theorem readE (hA : LeavesApart A) : ∀ n : Nat, ∀ d e, sizeOf d < n → OverE A d → OverE A e → ReadBack showE (fun a b => tuplesE a = tuplesE b) d e := by
  intro n
  induction n with
  | zero => exact fun _ _ h => absurd h (by omega)
  | succ n ih =>
    intro d e hn hd he r s hr hs h
    rw [showE_tail, showE_tail] at h
    injection h with _ h
    obtain ⟨hc, h⟩ := sameF hA hd.cond he.cond (follows_blank _) (follows_blank _) h
    simp only [List.cons.injEq, true_and] at h
    obtain ⟨hw, h⟩ := (effWord_name hd).split (effWord_name he) (effRest_stops d r) (effRest_stops e s) h
    cases hd with
    | @add c p ts h1 h2 =>
      cases he with
      | @add c' p' ts' g1 g2 =>
        injection h with _ h
        obtain ⟨e1, e2⟩ := sameF hA h2 g2 (follows_close _) (follows_close _) h
        simp only [List.cons.injEq, true_and] at e2
        simp only [tuplesF, Formula.atom.injEq] at e1
        simp only [Effect.cond] at hc
        exact ⟨by simp [tuplesE, hc, e1], e2⟩
      | del g1 g2 => exact absurd hw (by simp [effWord])
      | lit g1 g2 => exact absurd hw (by simp [effWord])
      | assign g1 g2 g3 g4 g5 => exact absurd (reserved3 (.inl rfl) hw.symm) g3
      | univ g1 g2 g3 => exact absurd h (by simp [effRest])
    | @del c p ts h1 h2 =>
      cases he with
      | @del c' p' ts' g1 g2 =>
        injection h with _ h
        obtain ⟨e1, e2⟩ := sameF hA h2 g2 (follows_close _) (follows_close _) h
        simp only [List.cons.injEq, true_and] at e2
        simp only [tuplesF, Formula.atom.injEq] at e1
        simp only [Effect.cond] at hc
        exact ⟨by simp [tuplesE, hc, e1], e2⟩
      | add g1 g2 => exact absurd hw (by simp [effWord])
      | lit g1 g2 => exact absurd hw (by simp [effWord])
      | assign g1 g2 g3 g4 g5 => exact absurd (reserved3 (.inr (.inl rfl)) hw.symm) g3
      | univ g1 g2 g3 => exact absurd h (by simp [effRest])
    | @lit c l h1 h2 =>
      cases he with
      | @lit c' l' g1 g2 =>
        injection h with _ h
        obtain ⟨e1, e2⟩ := sameF hA h2 g2 (follows_close _) (follows_close _) h
        simp only [List.cons.injEq, true_and] at e2
        simp only [Effect.cond] at hc
        exact ⟨by simp [tuplesE, hc, e1], e2⟩
      | add g1 g2 => exact absurd hw (by simp [effWord])
      | del g1 g2 => exact absurd hw (by simp [effWord])
      | assign g1 g2 g3 g4 g5 => exact absurd (reserved3 (.inr (.inr rfl)) hw.symm) g3
      | univ g1 g2 g3 => exact absurd h (by simp [effRest])
    | @assign c f ts rhs h1 h2 h3 h4 h5 =>
      cases he with
      | add g1 g2 => exact absurd (reserved3 (.inl rfl) hw) h3
      | del g1 g2 => exact absurd (reserved3 (.inr (.inl rfl)) hw) h3
      | lit g1 g2 => exact absurd (reserved3 (.inr (.inr rfl)) hw) h3
      | univ g1 g2 g3 => exact absurd h (by simp [effRest])
      | @assign c' f' ts' rhs' g1 g2 g3 g4 g5 =>
        injection h with _ h
        obtain ⟨e1, e2⟩ := args_split hA (.inl rfl) h4 g4 (fun a ha b hb r s hr hs h => sameT hA (h4 a ha) (g4 b hb) hr hs h) h
        simp only [List.cons.injEq, true_and] at e2
        obtain ⟨e3, e4⟩ := sameT hA h5 g5 (follows_close _) (follows_close _) e2
        simp only [List.cons.injEq, true_and] at e4
        simp only [Effect.cond] at hc
        exact ⟨by simp [tuplesE, hc, e1, e3, String.toList_injective hw], e4⟩
    | @univ c vs es h1 h2 h3 =>
      cases he with
      | add g1 g2 => exact absurd h (by simp [effRest])
      | del g1 g2 => exact absurd h (by simp [effRest])
      | lit g1 g2 => exact absurd h (by simp [effRest])
      | assign g1 g2 g3 g4 g5 => exact absurd h (by simp [effRest])
      | @univ c' vs' es' g1 g2 g3 =>
        simp only [effRest, List.cons.injEq, true_and] at h
        obtain ⟨e1, h⟩ := vars_read h2 g2 h
        simp only [List.cons.injEq, true_and] at h
        rw [showEs_map, showEs_map] at h
        obtain ⟨e2, e3⟩ := join_split' showE (fun a b => tuplesE a = tuplesE b) [',', ' '] [')'] (fun _ => follows_comma _) (fun _ => follows_close _) (by intro x y; simp)
          (by intro a _ x y; rw [showE_tail]; simp) (fun a ha b hb => ih a b (by
            have := List.sizeOf_lt_of_mem ha
            simp only [Effect.univ.sizeOf_spec] at hn
            omega) (h3 a ha) (g3 b hb)) h
        simp only [List.cons.injEq, true_and] at e3
        simp only [Effect.cond] at hc
        exact ⟨by simp [tuplesE, hc, e1, tuplesEs_map, forall2_map_eq e2], e3⟩

/-- **C116, effects.** Two effects have the same text exactly when they are the same, up to the Python containers of subformulas. -/
theorem C116_effect_partial (hA : LeavesApart A) {d e : Effect} (hd : OverE A d) (he : OverE A e) : showE d = showE e ↔ tuplesE d = tuplesE e :=
  ⟨fun h => (readE hA _ d e (Nat.lt_succ_self _) hd he [] [] follows_nil follows_nil (by rw [h])).1, fun h => by rw [← showE_tuples d, h, showE_tuples]⟩

theorem param_read {v w : Var} (hv : ShownName v.sym.toList ∧ ShownName v.sort.toList) (hw : ShownName w.sym.toList ∧ ShownName w.sort.toList) {r s : Text} (hr : Follows r) (hs : Follows s)
    (h : paramShown v ++ r = paramShown w ++ s) : v = w ∧ r = s := by
  have hn : ∀ {v : Var}, ShownName v.sym.toList → ShownName (v.sym.toList ++ [':']) := fun h => ⟨by simp, fun c hc => by
    rcases List.mem_append.1 hc with hc | hc
    · exact h.2 c hc
    · rw [List.mem_singleton.1 hc]; decide⟩
  obtain ⟨e1, e2⟩ := (hn hv.1).split (hn hw.1) (r := ' ' :: (v.sort.toList ++ r)) (s := ' ' :: (w.sort.toList ++ s)) (follows_blank _).stops (follows_blank _).stops
    (by simpa [paramShown] using h)
  simp only [List.cons.injEq, true_and] at e2
  obtain ⟨e3, e4⟩ := hv.2.split hw.2 hr.stops hs.stops e2
  exact ⟨by cases v; cases w; exact congr (congrArg Var.mk (String.toList_injective (List.append_cancel_right e1))) (String.toList_injective e3), e4⟩

theorem ident_read {a b : PAction} (ha : ShownName a.name.toList) (hb : ShownName b.name.toList) (hv : ∀ v ∈ a.params, ShownName v.sym.toList ∧ ShownName v.sort.toList)
    (hw : ∀ v ∈ b.params, ShownName v.sym.toList ∧ ShownName v.sort.toList) {r s : Text} (h : actionIdent a ++ r = actionIdent b ++ s) : a.name = b.name ∧ a.params = b.params ∧ r = s := by
  obtain ⟨e1, e2⟩ := ha.split hb (r := '(' :: (joinWith [','] (a.params.map paramShown) ++ ([')'] ++ r))) (s := '(' :: (joinWith [','] (b.params.map paramShown) ++ ([')'] ++ s)))
    (stops_open _) (stops_open _) (by simpa [actionIdent] using h)
  injection e2 with _ e2
  obtain ⟨e3, e4⟩ := join_split' paramShown (fun v w => v = w) [','] [')'] (fun _ => follows_comma _) (fun _ => follows_close _) (by intro x y; simp) (by
    intro v hv' x y e
    have hn := (hv'.elim (hv v) (hw v)).1
    cases hl : v.sym.toList with
    | nil => exact hn.1 hl
    | cons c l =>
      rw [hl] at hn
      simp only [paramShown, hl, List.cons_append, List.cons.injEq] at e
      exact (hn.2 c (by simp)).2.1 e.1) (fun v hv' w hw' r s hr hs h => param_read (hv v hv') (hw w hw') hr hs h) e2
  exact ⟨String.toList_injective e1, by simpa using forall2_map_eq (f := id) e3, e4⟩

/-- **C116, identifiers of actions.** Two actions have the same `ident` exactly when they have the same name and the same parameters, sorts included. -/
theorem C116_ident_partial {a b : PAction} (ha : ShownName a.name.toList) (hb : ShownName b.name.toList) (hv : ∀ v ∈ a.params, ShownName v.sym.toList ∧ ShownName v.sort.toList)
    (hw : ∀ v ∈ b.params, ShownName v.sym.toList ∧ ShownName v.sort.toList) : actionIdent a = actionIdent b ↔ a.name = b.name ∧ a.params = b.params :=
  ⟨fun h => by
    obtain ⟨e1, e2, -⟩ := ident_read ha hb hv hw (r := []) (s := []) (by rw [h])
    exact ⟨e1, e2⟩, fun ⟨h1, h2⟩ => by simp [actionIdent, h1, h2]⟩

/-- **C116, actions.** What `print` returns for two actions is the same exactly when they have the same name, the same parameters, and, up to the Python
containers of subformulas, the same precondition and the same effects in the same order. The cost is not printed. -/
theorem C116_action_partial (hA : LeavesApart A) {a b : PAction} (ha : OverA A a) (hb : OverA A b) :
    actionPrint a = actionPrint b ↔ a.name = b.name ∧ a.params = b.params ∧ tuplesF a.pre = tuplesF b.pre ∧ a.effs.map tuplesE = b.effs.map tuplesE := by
  constructor
  · intro h
    obtain ⟨e1, e2, h⟩ := ident_read ha.name hb.name ha.params hb.params
      (r := [':', '\n', 'p', 'r', 'e', '=', '('] ++ (showF a.pre ++ ')' :: ('\n' :: 'e' :: 'f' :: 'f' :: '=' :: '(' :: (joinWith [' ', '&', ' '] (showEs a.effs) ++ ([')'] ++ [])))))
      (s := [':', '\n', 'p', 'r', 'e', '=', '('] ++ (showF b.pre ++ ')' :: ('\n' :: 'e' :: 'f' :: 'f' :: '=' :: '(' :: (joinWith [' ', '&', ' '] (showEs b.effs) ++ ([')'] ++ []))))) (by simpa [actionPrint] using h)
    obtain ⟨e3, h⟩ := sameF hA ha.pre hb.pre (follows_close _) (follows_close _) (List.append_cancel_left h)
    simp only [List.cons.injEq, true_and] at h
    rw [showEs_map, showEs_map] at h
    obtain ⟨e4, -⟩ := join_split' showE (fun a b => tuplesE a = tuplesE b) [' ', '&', ' '] [')'] (fun _ => follows_blank _) (fun _ => follows_close _) (by intro x y; simp)
      (by intro a _ x y; rw [showE_tail]; simp) (fun d hd e he => readE hA _ d e (Nat.lt_succ_self _) (ha.effs d hd) (hb.effs e he)) h
    exact ⟨e1, e2, e3, forall2_map_eq e4⟩
  · rintro ⟨h1, h2, h3, h4⟩
    have h5 : showEs a.effs = showEs b.effs := by rw [← showEs_tuples a.effs, ← showEs_tuples b.effs, tuplesEs_map, tuplesEs_map, h4]
    have h6 : showF a.pre = showF b.pre := by rw [← showF_tuples a.pre, h3, showF_tuples]
    simp [actionPrint, actionIdent, h1, h2, h5, h6]

/-- The full claim: well-formed formulas with the same text are the same, up to the Python containers of subformulas. -/
def C116_formula_full : Prop := ∀ f g : Formula, WF f → WF g → showF f = showF g → tuplesF f = tuplesF g

/-- Finding: the sorts of variables are not printed, so `∃ x : p(x)` has one text whatever the sort of `x`. -/
theorem C116_sort_refuted : ¬ C116_formula_full := by
  intro h
  have := h (.quant .exists [.var ⟨"x", "block"⟩] .top) (.quant .exists [.var ⟨"x", "place"⟩] .top) (.quant _ _ _ (by simp) (by simp) .top) (.quant _ _ _ (by simp) (by simp) .top) rfl
  simp [tuplesF, tuplesTs, tuplesT] at this

/-- Finding: a variable and a constant with the same name, and the number 3 and the constant "3", are printed alike. -/
theorem C116_leaf_refuted (s s' : String) : showF (.atom (.user "p") [.var ⟨"a", s⟩]) = showF (.atom (.user "p") [.const (.str "a") s']) ∧
    showF (.atom (.user "p") [.const (.int 3) s]) = showF (.atom (.user "p") [.const (.str "3") s']) := ⟨rfl, rfl⟩

/-- Finding: names may have commas in them. -/
theorem C116_comma_refuted (s : String) : showF (.atom (.user "p") [.const (.str "a") s, .const (.str "b") s]) = showF (.atom (.user "p") [.const (.str "a,b") s]) := rfl

/-- Finding: the cost of an action is not printed. -/
theorem C116_cost_refuted (a : PAction) (c : Option Term) : actionPrint { a with cost := c } = actionPrint a := rfl

/-! ### Non-vacuity -/

/-- `?x`, `?y` and the constants `a` and 3. -/
def exStock (t : Term) : Prop := t = .var ⟨"?x", "block"⟩ ∨ t = .var ⟨"?y", "block"⟩ ∨ t = .const (.str "a") "block" ∨ t = .const (.int 3) "Integer"

theorem exStock_apart : LeavesApart exStock where
  leaf := by rintro t (rfl | rfl | rfl | rfl) <;> simp
  name := by rintro t (rfl | rfl | rfl | rfl) <;> (unfold ShownName showT; decide)
  apart := by rintro t u (rfl | rfl | rfl | rfl) (rfl | rfl | rfl | rfl) h <;> first | rfl | exact absurd h (by decide)

/-- `(on(?x,a) and (not exists ?y : (=(f(?y),3))))` -/
def exShown (k : Kind) : Formula := .comp k .and [.atom (.user "on") [.var ⟨"?x", "block"⟩, .const (.str "a") "block"],
  .comp .list .not [.quant .exists [.var ⟨"?y", "block"⟩] (.atom (.cmp .eq) [.app "f" [.var ⟨"?y", "block"⟩], .const (.int 3) "Integer"])]]

theorem exShown_over (k : Kind) : OverF exStock (exShown k) := by
  have hx : OverT exStock (.var ⟨"?x", "block"⟩) := .leaf (.inl rfl)
  have hy : OverT exStock (.var ⟨"?y", "block"⟩) := .leaf (.inr (.inl rfl))
  have ha : OverT exStock (.const (.str "a") "block") := .leaf (.inr (.inr (.inl rfl)))
  have h3 : OverT exStock (.const (.int 3) "Integer") := .leaf (.inr (.inr (.inr rfl)))
  refine .comp (by decide) (by simp) ?_
  intro f hf
  rcases List.mem_cons.1 hf with rfl | hf
  · exact .atom (by unfold ShownName; decide) (by decide) (by simp [hx, ha])
  · rw [List.mem_singleton.1 hf]
    exact .not (.quant (by simp) (by simp [exStock]) (.cmp (by
      intro t ht
      rcases List.mem_cons.1 ht with rfl | ht
      · exact .app (by unfold ShownName; decide) (by decide) (by simp [hy])
      · rw [List.mem_singleton.1 ht]; exact h3)))

/-- The text, and the two containers. -/
example : showF (exShown .tuple) = "(on(?x,a) and (not exists ?y : (=(f(?y),3))))".toList ∧ showF (exShown .tuple) = showF (exShown .list) :=
  ⟨by decide +kernel, (C116_formula_partial exStock_apart (exShown_over _) (exShown_over _)).2 rfl⟩

/-- An action. -/
def exShownAction : PAction where
  name := "stack"
  params := [⟨"?x", "block"⟩, ⟨"?y", "block"⟩]
  pre := exShown .tuple
  effs := [.add .top (.user "on") [.var ⟨"?x", "block"⟩, .var ⟨"?y", "block"⟩], .univ .top [⟨"?y", "block"⟩] [.assign .top "f" [.var ⟨"?y", "block"⟩] (.const (.int 3) "Integer")]]
  cost := none

example : OverA exStock exShownAction where
  name := by unfold ShownName; decide
  params := by simp only [exShownAction, ShownName]; decide
  pre := exShown_over _
  effs := by
    have hx : OverT exStock (.var ⟨"?x", "block"⟩) := .leaf (.inl rfl)
    have hy : OverT exStock (.var ⟨"?y", "block"⟩) := .leaf (.inr (.inl rfl))
    have h3 : OverT exStock (.const (.int 3) "Integer") := .leaf (.inr (.inr (.inr rfl)))
    intro e he
    rcases List.mem_cons.1 he with rfl | he
    · exact .add .top (.atom (by unfold ShownName; decide) (by decide) (by simp [hx, hy]))
    · rw [List.mem_singleton.1 he]
      exact .univ .top (by simp only [ShownName]; decide) (by
        intro e he
        rw [List.mem_singleton.1 he]
        exact .assign .top (by unfold ShownName; decide) (by decide) (by simp [hy]) h3)

example : actionPrint exShownAction = "stack(?x: block,?y: block):\npre=((on(?x,a) and (not exists ?y : (=(f(?y),3)))))\neff=((T -> ADD(on(?x,?y))) & (T -> forall ([?y (block)]) : ((T -> f(?y) := 3))))".toList := by
  decide +kernel

end Tarski

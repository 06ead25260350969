import Mathlib.Tactic.Common
import Mathlib.Tactic.Ring
import Mathlib.Tactic.Linarith
import Verif.DLEq
/-! C105: equality and hashing of description-logic elements. -/
namespace Tarski

/-! ### Specification -/

/-- The syntax of an element: classes, names and components, without the identity of the objects. -/
inductive DSyntax where
  | const (k : DConstCls)
  | named (k : DNamedCls) (n : DName)
  | one (k : DOneCls) (c : DSyntax)
  | two (k : DTwoCls) (c d : DSyntax)
deriving DecidableEq

def DObj.syntax : DObj → DSyntax
  | .const _ k => .const k
  | .named _ k n => .named k n
  | .one _ k c => .one k c.syntax
  | .two _ k c d => .two k c.syntax d.syntax

/-- The objects an element consists of. -/
def DObj.parts : DObj → List DObj
  | .const i k => [.const i k]
  | .named i k n => [.named i k n]
  | .one i k c => .one i k c :: c.parts
  | .two i k c d => .two i k c d :: (c.parts ++ d.parts)

/-- Every constructor call that builds the element returns. -/
def DObj.Constructed (digest : List Nat → Nat) (width : Nat) (o : DObj) : Prop :=
  ∀ x ∈ o.parts, ∃ h, x.hash digest width = .ok h

/-- The two elements are alive at the same time, so that what has the same identity is the same object. -/
def OneMemory (a b : DObj) : Prop := ∀ x ∈ a.parts ++ b.parts, ∀ y ∈ a.parts ++ b.parts, x.id = y.id → x = y

/-- The number needs a whole number of bytes for its absolute value, and then one more for the sign. -/
def NeedsSignByte (v : Int) : Prop :=
  ∃ n : Nat, 0 < n ∧ ((2 : Int) ^ (8 * n - 1) ≤ v ∧ v < (2 : Int) ^ (8 * n) ∨
    -(2 : Int) ^ (8 * n) < v ∧ v < -(2 : Int) ^ (8 * n - 1))

/-- The numbers that a constructor turns into bytes: a numeric name, or the identities of the immediate components. -/
def DObj.numbers : DObj → List Int
  | .const _ _ => []
  | .named _ _ (.str _) => []
  | .named _ _ (.int v) => [v]
  | .one _ _ c => [c.id]
  | .two _ _ c d => [c.id, d.id]

/-- Big-endian reading of bytes. -/
def unsignedOf (l : List Nat) : Nat := l.foldl (fun acc b => acc * 256 + b) 0

/-- Two's complement reading of bytes. -/
def signedOf (l : List Nat) : Int :=
  if 2 * unsignedOf l < 256 ^ l.length then (unsignedOf l : Int) else (unsignedOf l : Int) - (256 : Int) ^ l.length

/-! ### Bytes of a number -/

theorem beBytes_length (n len : Nat) : (beBytes n len).length = len := by
  induction len generalizing n with
  | zero => rfl
  | succ k ih => simp [beBytes, ih]

theorem unsignedOf_append (l : List Nat) (b : Nat) : unsignedOf (l ++ [b]) = unsignedOf l * 256 + b := by
  simp [unsignedOf, List.foldl_append]

theorem unsignedOf_beBytes (len : Nat) : ∀ n, n < 256 ^ len → unsignedOf (beBytes n len) = n := by
  induction len with
  | zero => intro n h; simp at h; subst h; rfl
  | succ k ih =>
    intro n h
    rw [beBytes, unsignedOf_append, ih _ (by rw [Nat.div_lt_iff_lt_mul (by omega)]; rwa [pow_succ] at h)]
    omega

theorem bitLength_spec (v : Int) (hv : v ≠ 0) : 0 < bitLength v ∧ 2 ^ (bitLength v - 1) ≤ v.natAbs ∧ v.natAbs < 2 ^ bitLength v := by
  have h0 : v.natAbs ≠ 0 := by simpa using hv
  simp only [bitLength, if_neg hv]
  exact ⟨by omega, by simpa using Nat.log2_self_le h0, Nat.lt_log2_self⟩

theorem pow256 (n : Nat) (hn : 0 < n) : (256 : Int) ^ n = 2 * 2 ^ (8 * n - 1) := by
  rw [show (256 : Int) = 2 ^ 8 by norm_num, ← pow_mul, ← pow_succ']
  congr 1; omega

/-- The bytes of a number are read back as the number. -/
theorem C105_bytes_roundtrip (v : Int) (l : List Nat) (h : intToBytes v = .ok l) : signedOf l = v := by
  simp only [intToBytes] at h
  split at h
  · cases h
    have : v = 0 := by
      by_contra hv
      have := (bitLength_spec v hv).1
      omega
    subst this; rfl
  · rename_i hn
    split at h
    · rename_i hr
      cases h
      generalize hN : (bitLength v + 7) / 8 = n at *
      have hp := pow256 n (by omega)
      have hpos : (0 : Int) < 256 ^ n := by positivity
      have hm := Int.emod_nonneg v (ne_of_gt hpos)
      have hl := Int.emod_lt_of_pos v hpos
      have hlt : (v % (256 : Int) ^ n).toNat < 256 ^ n := by
        have : ((v % (256 : Int) ^ n).toNat : Int) < ((256 ^ n : Nat) : Int) := by
          rw [Int.toNat_of_nonneg hm]; push_cast; exact hl
        exact_mod_cast this
      have hu := unsignedOf_beBytes n _ hlt
      simp only [signedOf, beBytes_length, hu]
      have hc : (((v % (256 : Int) ^ n).toNat : Nat) : Int) = v % (256 : Int) ^ n := Int.toNat_of_nonneg hm
      have hcond : 2 * (v % (256 : Int) ^ n).toNat < 256 ^ n ↔ 2 * (v % (256 : Int) ^ n) < (256 : Int) ^ n := by
        rw [← hc]; exact_mod_cast Iff.rfl
      rw [hc]
      by_cases hv : 0 ≤ v
      · have e : v % (256 : Int) ^ n = v := Int.emod_eq_of_lt hv (by omega)
        rw [e] at hcond ⊢
        rw [if_pos (hcond.2 (by omega))]
      · have e : v % (256 : Int) ^ n = v + 256 ^ n := by
          rw [← Int.add_emod_right]; exact Int.emod_eq_of_lt (by omega) (by omega)
        rw [e] at hcond ⊢
        rw [if_neg (fun hh => by have := hcond.1 hh; omega)]
        omega
    · cases h

theorem intToBytes_inj {v w : Int} {l : List Nat} (h : intToBytes v = .ok l) (h' : intToBytes w = .ok l) : v = w :=
  (C105_bytes_roundtrip v l h).symm.trans (C105_bytes_roundtrip w l h')

/-- Exactly the numbers that need one more byte for the sign cannot be written. -/
theorem intToBytes_ok_iff (v : Int) : (∃ l, intToBytes v = .ok l) ↔ ¬ NeedsSignByte v := by
  by_cases hv : v = 0
  · subst hv
    refine ⟨fun _ => ?_, fun _ => ⟨[0], rfl⟩⟩
    rintro ⟨n, hn, ⟨h, _⟩ | ⟨_, h⟩⟩
    · have : (0 : Int) < 2 ^ (8 * n - 1) := by positivity
      omega
    · have : (0 : Int) < 2 ^ (8 * n - 1) := by positivity
      omega
  obtain ⟨hb, hlo, hhi⟩ := bitLength_spec v hv
  have hlo' : (2 : Int) ^ (bitLength v - 1) ≤ (v.natAbs : Int) := by exact_mod_cast hlo
  have hhi' : (v.natAbs : Int) < (2 : Int) ^ bitLength v := by exact_mod_cast hhi
  generalize hB : bitLength v = B at *
  have hn0 : (B + 7) / 8 ≠ 0 := by omega
  simp only [intToBytes, hB, if_neg hn0]
  generalize hN : (B + 7) / 8 = n at *
  have hbody : (∃ l, (if -(2 : Int) ^ (8 * n - 1) ≤ v ∧ v < (2 : Int) ^ (8 * n - 1) then
      (.ok (beBytes (v % (256 : Int) ^ n).toNat n) : Except Err (List Nat)) else .error .overflow) = .ok l) ↔
      (-(2 : Int) ^ (8 * n - 1) ≤ v ∧ v < (2 : Int) ^ (8 * n - 1)) := by
    split
    · rename_i hr; exact ⟨fun _ => hr, fun _ => ⟨_, rfl⟩⟩
    · rename_i hr; exact ⟨fun ⟨l, hl⟩ => (by cases hl), fun hh => absurd hh hr⟩
  rw [hbody]
  constructor
  · rintro ⟨h1, h2⟩ ⟨m, hm, hcase⟩
    -- the absolute value lies between 2^(8m-1) and 2^(8m), so that the bit length is 8m
    have key : (2 : Int) ^ (8 * m - 1) ≤ (v.natAbs : Int) ∧ (v.natAbs : Int) < 2 ^ (8 * m) := by
      rcases hcase with ⟨a, b⟩ | ⟨a, b⟩
      · have : (0 : Int) < 2 ^ (8 * m - 1) := by positivity
        omega
      · have : (0 : Int) < 2 ^ (8 * m - 1) := by positivity
        omega
    have hB8 : B = 8 * m := by
      have l1 : (2 : Int) ^ (8 * m - 1) < 2 ^ B := lt_of_le_of_lt key.1 hhi'
      have l2 : (2 : Int) ^ (B - 1) < 2 ^ (8 * m) := lt_of_le_of_lt hlo' key.2
      have := (pow_lt_pow_iff_right₀ (by norm_num : (1 : Int) < 2)).1 l1
      have := (pow_lt_pow_iff_right₀ (by norm_num : (1 : Int) < 2)).1 l2
      omega
    have hnm : n = m := by omega
    subst hnm
    rcases hcase with ⟨a, b⟩ | ⟨a, b⟩ <;> omega
  · intro hno
    by_contra hr
    apply hno
    by_cases h8 : B = 8 * n
    · refine ⟨n, by omega, ?_⟩
      rw [h8] at hlo' hhi'
      by_cases hs : 0 ≤ v
      · left; omega
      · right; omega
    · exfalso
      have hle : (2 : Int) ^ B ≤ 2 ^ (8 * n - 1) := pow_le_pow_right₀ (by norm_num) (by omega)
      omega

/-! ### The bytes that are hashed -/

theorem utf8_append (s t : String) : utf8 (s ++ t) = utf8 s ++ utf8 t := by
  simp [utf8]

theorem hashInput_one (t : String) (i : Int) : (∃ b, hashInput [.cls t, .obj i] = .ok b) ↔ ¬ NeedsSignByte i := by
  rw [← intToBytes_ok_iff]
  simp only [hashInput, HPart.bytes]
  cases intToBytes i with
  | error e => simp
  | ok l => simp

variable {digest : List Nat → Nat} {width : Nat}

theorem consistentHash_ok_iff (l : List HPart) : (∃ h, consistentHash digest width l = .ok h) ↔ ∃ b, hashInput l = .ok b := by
  simp only [consistentHash]
  cases hashInput l with
  | error e => simp
  | ok b => simp

/-- C105, when construction returns: a constructor raises exactly when one of the numbers it writes (the identity of a component,
in effect its address, or a numeric name) needs a further byte for the sign. -/
theorem C105_construction_partial (o : DObj) : (∃ h, o.hash digest width = .ok h) ↔ ∀ v ∈ o.numbers, ¬ NeedsSignByte v := by
  cases o with
  | const i k => simp [DObj.hash, DObj.numbers, consistentHash, hashInput, HPart.bytes]
  | named i k n =>
    simp only [DObj.hash, consistentHash_ok_iff]
    cases n with
    | str s => simp [DObj.numbers, hashInput, HPart.bytes, DName.part]
    | int v =>
      simp only [DObj.numbers, hashInput, HPart.bytes, DName.part, List.mem_singleton, forall_eq, ← intToBytes_ok_iff]
      cases intToBytes v <;> simp
  | one i k c =>
    simp only [DObj.hash, consistentHash_ok_iff]
    simp only [DObj.numbers, hashInput, HPart.bytes, List.mem_singleton, forall_eq, ← intToBytes_ok_iff]
    cases intToBytes c.id <;> simp
  | two i k c d =>
    simp only [DObj.hash, consistentHash_ok_iff]
    simp only [DObj.numbers, hashInput, HPart.bytes, List.mem_cons, List.not_mem_nil, or_false, forall_eq_or_imp, forall_eq,
      ← intToBytes_ok_iff]
    cases intToBytes c.id <;> cases intToBytes d.id <;> simp

/-- … and the error is an overflow. -/
theorem C105_construction_error_partial (o : DObj) (e : Err) (h : o.hash digest width = .error e) : e = .overflow := by
  have hi : ∀ v x, intToBytes v = .error x → x = .overflow := by
    intro v x hx
    simp only [intToBytes] at hx
    split at hx
    · cases hx
    · split at hx
      · cases hx
      · cases hx; rfl
  have hp : ∀ (p : HPart) x, p.bytes = .error x → x = .overflow := by
    intro p x hx
    cases p <;> simp only [HPart.bytes] at hx
    · cases hx
    · exact hi _ _ hx
    · cases hx
    · exact hi _ _ hx
  have hl : ∀ (l : List HPart) x, hashInput l = .error x → x = .overflow := by
    intro l
    induction l with
    | nil => intro x hx; cases hx
    | cons p l ih =>
      intro x hx
      simp only [hashInput] at hx
      split at hx
      · rename_i y hy; cases hx; exact hp _ _ hy
      · split at hx
        · rename_i y hy; cases hx; exact ih _ hy
        · cases hx
  have hc : ∀ (l : List HPart) x, consistentHash digest width l = .error x → x = .overflow := by
    intro l x hx
    simp only [consistentHash] at hx
    split at hx
    · rename_i y hy; cases hx; exact hl _ _ hy
    · cases hx
  cases o <;> simp only [DObj.hash] at h <;> exact hc _ _ h

/-- Construction can fail: for the negation of a concept at an address of 8 bits, or of the nominal 200 of a numeric sort. -/
theorem C105_construction_refuted : ¬ ∀ (digest : List Nat → Nat) (width : Nat) (o : DObj), ∃ h, o.hash digest width = .ok h := by
  intro h
  have := (C105_construction_partial (digest := fun _ => 0) (width := 64) (.named 1 .nominal (.int 200))).1 (h _ _ _) 200
    (by simp [DObj.numbers])
  exact this ⟨1, by omega, .inl ⟨by norm_num, by norm_num⟩⟩

example : (∃ h, (DObj.one 9 .not (.named 1000 .concept (.str "clear"))).hash digest width = .ok h) ∧
    ¬ ∃ h, (DObj.one 9 .not (.named 200 .concept (.str "clear"))).hash digest width = .ok h := by
  constructor
  · exact ⟨_, rfl⟩
  · rintro ⟨h, hh⟩; cases hh

/-! ### Equality -/

theorem sameHash_iff (a b : DObj) (ha : ∃ h, a.hash digest width = .ok h) (hb : ∃ h, b.hash digest width = .ok h) :
    a.sameHash digest width b = true ↔ a.hash digest width = b.hash digest width := by
  obtain ⟨h, ha⟩ := ha
  obtain ⟨k, hb⟩ := hb
  simp [DObj.sameHash, ha, hb]

theorem sameHash_eq {a b : DObj} (h : a.sameHash digest width b = true) : a.hash digest width = b.hash digest width := by
  simp only [DObj.sameHash] at h
  split at h
  · rename_i x y hx hy
    rw [hx, hy]
    simpa using h
  · cases h

theorem sameHash_trans {a b c : DObj} (h : a.sameHash digest width b = true) (h' : b.sameHash digest width c = true) :
    a.sameHash digest width c = true := by
  have e := sameHash_eq h
  have e' := sameHash_eq h'
  simp only [DObj.sameHash] at h h' ⊢
  rw [← e', ← e]
  rw [← e] at h
  exact h

theorem sameHash_symm {a b : DObj} (h : a.sameHash digest width b = true) : b.sameHash digest width a = true := by
  have e := sameHash_eq h
  simp only [DObj.sameHash] at h ⊢
  rw [e] at h ⊢
  exact h

theorem mem_parts_self (o : DObj) : o ∈ o.parts := by cases o <;> simp [DObj.parts]

/-- C105, an element is equal to itself. -/
theorem C105_eq_refl (a : DObj) (h : a.Constructed digest width) : a.eq digest width a = true := by
  induction a with
  | const i k => simp [DObj.eq]
  | named i k n =>
    have := (sameHash_iff _ _ (h _ (mem_parts_self _)) (h _ (mem_parts_self _))).2 rfl
    simp [DObj.eq, this]
  | one i k c ih =>
    have := (sameHash_iff _ _ (h _ (mem_parts_self _)) (h _ (mem_parts_self _))).2 rfl
    simp [DObj.eq, this, ih fun x hx => h x (by simp [DObj.parts, hx])]
  | two i k c d ih ih' =>
    have := (sameHash_iff _ _ (h _ (mem_parts_self _)) (h _ (mem_parts_self _))).2 rfl
    simp [DObj.eq, this, ih fun x hx => h x (by simp [DObj.parts, hx]), ih' fun x hx => h x (by simp [DObj.parts, hx])]

/-- C105, equality is symmetric. -/
theorem C105_eq_symm (a b : DObj) (h : a.eq digest width b = true) : b.eq digest width a = true := by
  induction a generalizing b with
  | const i k => cases b <;> simp_all [DObj.eq]
  | named i k n =>
    cases b <;> simp only [DObj.eq, Bool.and_eq_true, decide_eq_true_eq, Bool.false_eq_true] at h ⊢
    exact ⟨⟨sameHash_symm h.1.1, h.1.2.symm⟩, h.2.symm⟩
  | one i k c ih =>
    cases b <;> simp only [DObj.eq, Bool.and_eq_true, decide_eq_true_eq, Bool.false_eq_true] at h ⊢
    exact ⟨⟨sameHash_symm h.1.1, h.1.2.symm⟩, ih _ h.2⟩
  | two i k c d ih ih' =>
    cases b <;> simp only [DObj.eq, Bool.and_eq_true, decide_eq_true_eq, Bool.false_eq_true] at h ⊢
    exact ⟨⟨⟨sameHash_symm h.1.1.1, h.1.1.2.symm⟩, ih _ h.1.2⟩, ih' _ h.2⟩

/-- C105, equality is transitive. -/
theorem C105_eq_trans (a b c : DObj) (h : a.eq digest width b = true) (h' : b.eq digest width c = true) :
    a.eq digest width c = true := by
  induction a generalizing b c with
  | const i k =>
    cases b <;> simp only [DObj.eq, decide_eq_true_eq, Bool.false_eq_true] at h
    subst h
    cases c <;> simpa [DObj.eq] using h'
  | named i k n =>
    cases b <;> simp only [DObj.eq, Bool.and_eq_true, decide_eq_true_eq, Bool.false_eq_true] at h
    cases c <;> simp only [DObj.eq, Bool.and_eq_true, decide_eq_true_eq, Bool.false_eq_true] at h' ⊢
    exact ⟨⟨sameHash_trans h.1.1 h'.1.1, h.1.2.trans h'.1.2⟩, h.2.trans h'.2⟩
  | one i k x ih =>
    cases b <;> simp only [DObj.eq, Bool.and_eq_true, decide_eq_true_eq, Bool.false_eq_true] at h
    cases c <;> simp only [DObj.eq, Bool.and_eq_true, decide_eq_true_eq, Bool.false_eq_true] at h' ⊢
    exact ⟨⟨sameHash_trans h.1.1 h'.1.1, h.1.2.trans h'.1.2⟩, ih _ _ h.2 h'.2⟩
  | two i k x y ih ih' =>
    cases b <;> simp only [DObj.eq, Bool.and_eq_true, decide_eq_true_eq, Bool.false_eq_true] at h
    cases c <;> simp only [DObj.eq, Bool.and_eq_true, decide_eq_true_eq, Bool.false_eq_true] at h' ⊢
    exact ⟨⟨⟨sameHash_trans h.1.1.1 h'.1.1.1, h.1.1.2.trans h'.1.1.2⟩, ih _ _ h.1.2 h'.1.2⟩, ih' _ _ h.2 h'.2⟩

/-- C105, equal elements have the same hash, so that sets and dictionaries of elements work. -/
theorem C105_eq_hash (a b : DObj) (h : a.eq digest width b = true) : a.hash digest width = b.hash digest width := by
  cases a with
  | const i k =>
    cases b <;> simp only [DObj.eq, decide_eq_true_eq, Bool.false_eq_true] at h
    subst h; rfl
  | named i k n =>
    cases b <;> simp only [DObj.eq, Bool.and_eq_true, decide_eq_true_eq, Bool.false_eq_true] at h
    exact sameHash_eq h.1.1
  | one i k c =>
    cases b <;> simp only [DObj.eq, Bool.and_eq_true, decide_eq_true_eq, Bool.false_eq_true] at h
    exact sameHash_eq h.1.1
  | two i k c d =>
    cases b <;> simp only [DObj.eq, Bool.and_eq_true, decide_eq_true_eq, Bool.false_eq_true] at h
    exact sameHash_eq h.1.1.1

/-- C105, equal elements are written alike, whatever the digest does. -/
theorem C105_eq_sound (a b : DObj) (h : a.eq digest width b = true) : a.syntax = b.syntax := by
  induction a generalizing b with
  | const i k => cases b <;> simp_all [DObj.eq, DObj.syntax]
  | named i k n => cases b <;> simp_all [DObj.eq, DObj.syntax]
  | one i k c ih =>
    cases b <;> simp only [DObj.eq, Bool.and_eq_true, decide_eq_true_eq, Bool.false_eq_true] at h
    simp only [DObj.syntax, h.1.2, ih _ h.2]
  | two i k c d ih ih' =>
    cases b <;> simp only [DObj.eq, Bool.and_eq_true, decide_eq_true_eq, Bool.false_eq_true] at h
    simp only [DObj.syntax, h.1.1.2, ih _ h.1.2, ih' _ h.2]

/-- The full statement of completeness: elements that are written alike are equal. -/
def C105_complete (digest : List Nat → Nat) (width : Nat) : Prop := ∀ a b : DObj, OneMemory a b → a.Constructed digest width →
  b.Constructed digest width → a.syntax = b.syntax → a.eq digest width b = true

/-- C105, completeness, proved part: for elements without components, and for elements whose immediate components are the very
same objects whenever they are written alike. -/
theorem C105_complete_partial (a b : DObj) (ha : a.Constructed digest width) (hb : b.Constructed digest width)
    (hshare : match a, b with
      | .one _ _ c, .one _ _ c' => c.syntax = c'.syntax → c = c'
      | .two _ _ c d, .two _ _ c' d' => (c.syntax = c'.syntax → c = c') ∧ (d.syntax = d'.syntax → d = d')
      | _, _ => True)
    (h : a.syntax = b.syntax) : a.eq digest width b = true := by
  cases a with
  | const i k => cases b <;> simp_all [DObj.eq, DObj.syntax]
  | named i k n =>
    cases b <;> simp only [DObj.syntax, DSyntax.named.injEq, reduceCtorEq] at h
    obtain ⟨rfl, rfl⟩ := h
    have := (sameHash_iff _ _ (ha _ (mem_parts_self _)) (hb _ (mem_parts_self _))).2 rfl
    simp [DObj.eq, this]
  | one i k c =>
    cases b <;> simp only [DObj.syntax, DSyntax.one.injEq, reduceCtorEq] at h
    obtain ⟨rfl, hs⟩ := h
    obtain rfl := hshare hs
    have := (sameHash_iff _ _ (ha _ (mem_parts_self _)) (hb _ (mem_parts_self _))).2 rfl
    simp [DObj.eq, this, C105_eq_refl c fun x hx => ha x (by simp [DObj.parts, hx])]
  | two i k c d =>
    cases b <;> simp only [DObj.syntax, DSyntax.two.injEq, reduceCtorEq] at h
    obtain ⟨rfl, hs, hs'⟩ := h
    obtain rfl := hshare.1 hs
    obtain rfl := hshare.2 hs'
    have := (sameHash_iff _ _ (ha _ (mem_parts_self _)) (hb _ (mem_parts_self _))).2 rfl
    simp [DObj.eq, this, C105_eq_refl c fun x hx => ha x (by simp [DObj.parts, hx]),
      C105_eq_refl d fun x hx => ha x (by simp [DObj.parts, hx])]

/-- C105, what equality of elements with one component really is, as long as the digest does not take the two to the same number:
identity of the component. Two negations, inverses or closures built from two objects are never equal. -/
theorem C105_one_identity_partial (i j : Int) (k : DOneCls) (c d : DObj) (hm : OneMemory (.one i k c) (.one j k d))
    (hc : (DObj.one i k c).Constructed digest width) (hd : (DObj.one j k d).Constructed digest width)
    (hdig : ∀ x y, hashInput [.cls k.text, .obj c.id] = .ok x → hashInput [.cls k.text, .obj d.id] = .ok y →
      digest x % 2 ^ width = digest y % 2 ^ width → x = y) :
    (DObj.one i k c).eq digest width (.one j k d) = true ↔ c = d := by
  constructor
  · intro h
    have hh := C105_eq_hash _ _ h
    obtain ⟨p, hp⟩ := hc _ (mem_parts_self _)
    obtain ⟨q, hq⟩ := hd _ (mem_parts_self _)
    simp only [DObj.hash, consistentHash] at hh hp hq
    cases hx : hashInput [.cls k.text, .obj c.id] with
    | error e => rw [hx] at hp; cases hp
    | ok x =>
      cases hy : hashInput [.cls k.text, .obj d.id] with
      | error e => rw [hy] at hq; cases hq
      | ok y =>
        rw [hx, hy] at hh
        simp only [Except.ok.injEq] at hh
        have hxy := hdig x y hx hy hh
        subst hxy
        simp only [hashInput, HPart.bytes] at hx hy
        cases h1 : intToBytes c.id with
        | error e => rw [h1] at hx; cases hx
        | ok u =>
          cases h2 : intToBytes d.id with
          | error e => rw [h2] at hy; cases hy
          | ok v =>
            rw [h1] at hx
            rw [h2, ← hx] at hy
            simp only [List.append_nil, Except.ok.injEq, List.append_cancel_left_eq] at hy
            subst hy
            exact hm c (by simp [DObj.parts, mem_parts_self]) d (by simp [DObj.parts, mem_parts_self]) (intToBytes_inj h1 h2)
  · rintro rfl
    exact C105_complete_partial _ _ hc hd (fun _ => rfl) rfl

/-- Completeness fails for every digest that tells apart two byte strings that differ in the last byte: `Not(clear)` built from two
objects `clear`. -/
theorem C105_complete_refuted (digest : List Nat → Nat) (width : Nat)
    (hdig : digest (utf8 DOneCls.not.text ++ [1]) % 2 ^ width ≠ digest (utf8 DOneCls.not.text ++ [2]) % 2 ^ width) :
    ¬ C105_complete digest width := by
  intro h
  have hcon : ∀ i c, (c = 1 ∨ c = 2) → (DObj.one i .not (.named c .concept (.str "clear"))).Constructed digest width := by
    intro i c hcc x hx
    simp only [DObj.parts, List.mem_cons, List.not_mem_nil, or_false] at hx
    rcases hx with rfl | rfl
    · rcases hcc with rfl | rfl <;> exact ⟨_, rfl⟩
    · exact ⟨_, rfl⟩
  have hm : OneMemory (.one 3 .not (.named 1 .concept (.str "clear"))) (.one 4 .not (.named 2 .concept (.str "clear"))) := by
    intro x hx y hy
    simp only [DObj.parts, List.cons_append, List.nil_append, List.mem_cons, List.not_mem_nil, or_false] at hx hy
    rcases hx with rfl | rfl | rfl | rfl <;> rcases hy with rfl | rfl | rfl | rfl <;> simp [DObj.id]
  have e := h _ _ hm (hcon 3 1 (.inl rfl)) (hcon 4 2 (.inr rfl)) rfl
  have := (C105_one_identity_partial _ _ _ _ _ hm (hcon 3 1 (.inl rfl)) (hcon 4 2 (.inr rfl)) (by
    intro x y hx hy hxy
    have hx : x = utf8 DOneCls.not.text ++ [1] := by
      simp only [hashInput, HPart.bytes, DObj.id, show intToBytes 1 = .ok [1] from rfl] at hx
      simpa using hx.symm
    have hy : y = utf8 DOneCls.not.text ++ [2] := by
      simp only [hashInput, HPart.bytes, DObj.id, show intToBytes 2 = .ok [2] from rfl] at hy
      simpa using hy.symm
    subst hx hy
    exact absurd hxy hdig)).1 e
  simp at this

/-- There is such a digest. -/
theorem C105_refuted : ∃ digest width, ¬ C105_complete digest width :=
  ⟨fun l => unsignedOf l, 8, C105_complete_refuted _ _ (by rw [unsignedOf_append, unsignedOf_append]; omega)⟩

/-- `consistent_hash` does not keep its elements apart: moving a piece of text from one string to the next changes nothing. -/
theorem C105_hash_boundaries_refuted (s t u : String) (l : List HPart) :
    consistentHash digest width (.str (s ++ t) :: .str u :: l) = consistentHash digest width (.str s :: .str (t ++ u) :: l) := by
  simp only [consistentHash, hashInput, HPart.bytes, utf8_append]
  cases hashInput l <;> simp

/-- Two objects for `And(clear, Not(red))` that share their components are equal, by C105_complete_partial. -/
example : let c := DObj.named 1 .concept (.str "clear")
    let d := DObj.one 2 .not (.named 3 .concept (.str "red"))
    (DObj.two 4 .and c d).eq digest width (.two 5 .and c d) = true := by
  intro c d
  have hcon : ∀ i, (DObj.two i .and c d).Constructed digest width := by
    intro i x hx
    simp only [DObj.parts, List.mem_cons, List.cons_append, List.nil_append, List.not_mem_nil, or_false, c, d] at hx
    rcases hx with rfl | rfl | rfl | rfl <;> exact ⟨_, rfl⟩
  exact C105_complete_partial _ _ (hcon 4) (hcon 5) ⟨fun _ => rfl, fun _ => rfl⟩ rfl

example : intToBytes (-128) = .ok [128] ∧ intToBytes 300 = .ok [1, 44] ∧ intToBytes (-129) = .error .overflow := ⟨rfl, rfl, rfl⟩

end Tarski

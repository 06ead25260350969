import Verif.Syntax
/-! Model of equality and hashing of description-logic elements: the constructors' hashes, `__hash__` and `__eq__` of the
classes in /repo/src/tarski/dl/concepts.py, and /repo/src/tarski/utils/hashing.py, byte by byte. The digest function (SHA-256 of
a byte string, as a number) is a parameter. -/
namespace Tarski

/-! ### utils/hashing.py -/

/-- Python's `int.bit_length`. -/
def bitLength (v : Int) : Nat := if v = 0 then 0 else v.natAbs.log2 + 1

/-- The `len` big-endian bytes of a number. -/
def beBytes (n : Nat) : Nat → List Nat
  | 0 => []
  | len + 1 => beBytes (n / 256) len ++ [n % 256]

/-- Models `int_to_bytes` (hashing.py:5-6): `to_bytes(n, "big", signed=True)` writes two's complement and raises OverflowError
when the value is not between `-2^(8n-1)` and `2^(8n-1) - 1`; for zero there are no bytes, and one null byte instead. -/
def intToBytes (v : Int) : Except Err (List Nat) :=
  let n := (bitLength v + 7) / 8
  if n = 0 then .ok [0]
  else if -(2 : Int) ^ (8 * n - 1) ≤ v ∧ v < (2 : Int) ^ (8 * n - 1) then .ok (beBytes (v % (256 : Int) ^ n).toNat n)
  else .error .overflow

/-- What `consistent_hash` is given here: strings, numbers, classes (with the text that `str` gives), and other objects, with
the number that `object.__hash__` gives, which is computed from the address of the object. -/
inductive HPart where
  | str (s : String)
  | int (v : Int)
  | cls (text : String)
  | obj (id : Int)

/-- `str.encode()`. -/
def utf8 (s : String) : List Nat := s.toByteArray.data.toList.map UInt8.toNat

/-- The bytes of one element (hashing.py:12-22); the last branch (hashing.py:24-25) is never taken, as every Python object has
the attribute `__hash__`. -/
def HPart.bytes : HPart → Except Err (List Nat)
  | .str s => .ok (utf8 s)
  | .int v => intToBytes v
  | .cls t => .ok (utf8 t)
  | .obj i => intToBytes i

/-- The bytes that reach the digest: `h.update` concatenates (hashing.py:10-25). -/
def hashInput : List HPart → Except Err (List Nat)
  | [] => .ok []
  | p :: l => match p.bytes with
    | .error e => .error e
    | .ok b => match hashInput l with
      | .error e => .error e
      | .ok bs => .ok (b ++ bs)

/-- Models `consistent_hash` (hashing.py:9-26) for a digest function and a width of hashes. -/
def consistentHash (digest : List Nat → Nat) (width : Nat) (l : List HPart) : Except Err Nat :=
  match hashInput l with
  | .error e => .error e
  | .ok bs => .ok (digest bs % 2 ^ width)

/-! ### dl/concepts.py -/

/-- Classes without fields that matter (dl/concepts.py:76, 99). -/
inductive DConstCls where
  | universal | empty
deriving DecidableEq

/-- Classes with a name (dl/concepts.py:9, 39, 122, 151, 188, 417, 451). -/
inductive DNamedCls where
  | nullary | goalNullary | nominal | concept | goalConcept | role | goalRole
deriving DecidableEq

/-- Classes with one component (dl/concepts.py:195, 458, 491). -/
inductive DOneCls where
  | not | inverse | star
deriving DecidableEq

/-- Classes with two components (dl/concepts.py:225, 260, 295, 333, 375, 523, 566). -/
inductive DTwoCls where
  | and | or | exists | forall | equal | composition | restrict
deriving DecidableEq

/-- The text of a class of the module. -/
def clsText (s : String) : String := "<class 'tarski.dl.concepts." ++ s ++ "'>"

def DConstCls.text : DConstCls → String
  | .universal => clsText "UniversalConcept"
  | .empty => clsText "EmptyConcept"

def DNamedCls.text : DNamedCls → String
  | .nullary => clsText "NullaryAtom"
  | .goalNullary => clsText "GoalNullaryAtom"
  | .nominal => clsText "NominalConcept"
  | .concept => clsText "PrimitiveConcept"
  | .goalConcept => clsText "GoalConcept"
  | .role => clsText "PrimitiveRole"
  | .goalRole => clsText "GoalRole"

def DOneCls.text : DOneCls → String
  | .not => clsText "NotConcept"
  | .inverse => clsText "InverseRole"
  | .star => clsText "StarRole"

def DTwoCls.text : DTwoCls → String
  | .and => clsText "AndConcept"
  | .or => clsText "OrConcept"
  | .exists => clsText "ExistsConcept"
  | .forall => clsText "ForallConcept"
  | .equal => clsText "EqualConcept"
  | .composition => clsText "CompositionRole"
  | .restrict => clsText "RestrictRole"

/-- The name of a nominal or primitive: a string, or a number for constants of numeric sorts. -/
inductive DName where
  | str (s : String)
  | int (v : Int)
deriving DecidableEq

def DName.part : DName → HPart
  | .str s => .str s
  | .int v => .int v

/-- An element as an object in memory: `id` is what `object.__hash__` gives for it. The two components of `two` are in the order
of the constructor's arguments. Sorts and sizes, which neither `__eq__` nor the hash looks at, are left out. -/
inductive DObj where
  | const (id : Int) (k : DConstCls)
  | named (id : Int) (k : DNamedCls) (name : DName)
  | one (id : Int) (k : DOneCls) (c : DObj)
  | two (id : Int) (k : DTwoCls) (c d : DObj)
deriving DecidableEq

def DObj.id : DObj → Int
  | .const i _ => i
  | .named i _ _ => i
  | .one i _ _ => i
  | .two i _ _ _ => i

variable (digest : List Nat → Nat) (width : Nat)

/-- The field `hash` that the constructors compute (dl/concepts.py:17, 79, 102, 126, 163, 200, 232, 267, 303, 341, 382, 426, 464,
496, 530, 573) and that `__hash__` returns. An error means that the constructor raises. -/
def DObj.hash : DObj → Except Err Nat
  | .const _ k => consistentHash digest width [.cls k.text]
  | .named _ k n => consistentHash digest width [.cls k.text, n.part]
  | .one _ k c => consistentHash digest width [.cls k.text, .obj c.id]
  | .two _ k c d => consistentHash digest width [.cls k.text, .obj c.id, .obj d.id]

/-- `self.hash == other.hash`, for objects that were constructed. -/
def DObj.sameHash (a b : DObj) : Bool :=
  match a.hash digest width, b.hash digest width with
  | .ok h, .ok k => h == k
  | _, _ => false

/-- Models the `__eq__` methods (dl/concepts.py:22-28, 84-85, 107-108, 131-137, 168-174, 205-211, 237-244, 272-279, 308-315,
346-353, 387-394, 431-437, 469-475, 501-507, 535-542, 578-585). -/
def DObj.eq : DObj → DObj → Bool
  | .const _ k, .const _ k' => k = k'
  | a@(.named _ k n), b@(.named _ k' n') => a.sameHash digest width b && decide (k = k') && decide (n = n')
  | a@(.one _ k c), b@(.one _ k' c') => a.sameHash digest width b && decide (k = k') && c.eq c'
  | a@(.two _ k c d), b@(.two _ k' c' d') => a.sameHash digest width b && decide (k = k') && c.eq c' && d.eq d'
  | _, _ => false

end Tarski

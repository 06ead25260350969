import Verif.Algorithms
import Mathlib.Data.Finset.Union
import Mathlib.Data.Finset.SDiff
/-! Model of /repo/src/tarski/dl/concepts.py and /repo/src/tarski/dl/features.py.

The code leaves the objects of a state, the denotation of primitive symbols and the encoding of denotations as bit
vectors to a `model` object supplied by the caller (`universe`, `primitive_denotation`, `compressed`,
`uncompressed_denotation`). Here the universe is a finite set `U`, primitive denotations are finite sets, a bit vector
over the universe is the finite set of objects whose bit is set, so that `~` is the complement in `U`, and
`uncompressed_denotation(e)` is the denotation of `e`. -/
namespace Tarski

mutual
/-- Concepts (dl/concepts.py:76-414). `prim` covers nominals, primitive and goal concepts, whose denotation is
`model.primitive_denotation`. -/
inductive DConcept where
  | top
  | bot
  | prim (name : String)
  | not (c : DConcept)
  | and (c1 c2 : DConcept)
  | or (c1 c2 : DConcept)
  | exists (r : DRole) (c : DConcept)
  | forall (r : DRole) (c : DConcept)
  | equal (r1 r2 : DRole)
/-- Roles (dl/concepts.py:417-599). -/
inductive DRole where
  | prim (name : String)
  | inverse (r : DRole)
  | star (r : DRole)
  | comp (r1 r2 : DRole)
  | restrict (r : DRole) (c : DConcept)
end

/-- What the caller's `model` object supplies. `enum` is the order in which a set of pairs is iterated. -/
structure DState (α : Type) where
  univ : Finset α
  concept : String → Finset α
  role : String → Finset (α × α)
  enum : Finset (α × α) → List (α × α)

variable {α : Type} [DecidableEq α]

/-- Models the inner loop of `CompositionRole.denotation` (dl/concepts.py:549-552), which stops at the first match. -/
def firstMatch (b : α) : List (α × α) → Option α
  | [] => none
  | (x, y) :: l => if b = x then some y else firstMatch b l

/-- Models both loops (dl/concepts.py:547-552). -/
def composeBreak (r1 : List (α × α)) (r2 : List (α × α)) : Finset (α × α) :=
  (r1.filterMap fun p => (firstMatch p.2 r2).map fun y => (p.1, y)).toFinset

mutual
/-- Models the `denotation` methods of concepts: universe/empty (dl/concepts.py:87-88, 110-111), nominal and primitive
(139-140, 176-177), not (213-214), and (246-249), or (281-284), exists (317-322), forall (355-364), equal (396-406). -/
def denC (S : DState α) : DConcept → Finset α
  | .top => S.univ
  | .bot => ∅
  | .prim n => S.concept n
  | .not c => S.univ \ denC S c
  | .and c1 c2 => denC S c1 ∩ denC S c2
  | .or c1 c2 => denC S c1 ∪ denC S c2
  | .exists r c => ((denR S r).filter fun p => p.2 ∈ denC S c).image Prod.fst
  | .forall r c => S.univ.filter fun x =>
      (S.univ).card = (denC S c ∪ S.univ.filter fun y => (x, y) ∉ denR S r).card
  | .equal r1 r2 => S.univ.filter fun x =>
      ((denR S r1).filter fun p => p.1 = x).image Prod.snd = ((denR S r2).filter fun p => p.1 = x).image Prod.snd
/-- Models the `denotation` methods of roles: primitive (dl/concepts.py:439-440), inverse (477-480), star (509-512),
composition (544-555), restrict (587-591). -/
def denR (S : DState α) : DRole → Finset (α × α)
  | .prim n => S.role n
  | .inverse r => (denR S r).image fun p => (p.2, p.1)
  | .star r => transitiveClosure (denR S r)
  | .comp r1 r2 => composeBreak (S.enum (denR S r1)) (S.enum (denR S r2))
  | .restrict r c => (denR S r).filter fun p => p.2 ∈ denC S c
end

/-- `FeatureValueChange` (dl/features.py:10-17); the two `_OR_NIL` values are never produced by `diff`. -/
inductive FChange where
  | add | del | inc | dec | nil
deriving DecidableEq

/-- Models `compute_int_feature_diff` (dl/features.py:49-57). The assertions of lines 50-51 hold of naturals. -/
def intDiff (x y : Nat) : FChange :=
  if x = y then .nil else if x > y then .dec else .inc

/-- Models `compute_bool_feature_diff` (dl/features.py:60-68). -/
def boolDiff (x y : Bool) : FChange :=
  if y && !x then .add else if x && !y then .del else .nil

/-- Models `are_feature_changes_analogous` (dl/features.py:71-78). -/
def analogous (x y : FChange) : Bool :=
  decide (x = y) || (decide (x = .del) && decide (y = .dec)) || (decide (x = .dec) && decide (y = .del)) ||
  (decide (x = .add) && decide (y = .inc)) || (decide (x = .inc) && decide (y = .add))

/-- Features (dl/features.py:81-308). -/
inductive DFeature where
  | card (c : DConcept)
  | empirical (c : DConcept)
  | minDist (c1 : DConcept) (r : DRole) (c2 : DConcept)
  | less (c1 c2 : DConcept)
  | nullary (name : String)

/-- The value of a feature: an int or a bool. -/
inductive FValue where
  | int (n : Nat)
  | bool (b : Bool)
deriving DecidableEq

/-- Models the `denotation` methods (dl/features.py:89-90, 125-128, 212-226, 259-263, 283-286). `none` is a failed
assertion. `enumC` is the order in which sets of objects are iterated, `atoms` the true nullary atoms. -/
def DFeature.value (S : DState α) (enumC : Finset α → List α) (atoms : String → Bool) : DFeature → Option FValue
  | .card c => some (.int (denC S c).card)
  | .empirical c =>
    let val := (denC S c).card
    if val = 0 ∨ val = 1 then some (.bool (val != 0)) else none
  | .minDist c1 r c2 =>
    some (.int (computeMinDistance (enumC (denC S c1)) (S.enum (denR S r)) (enumC (denC S c2))))
  | .less c1 c2 => some (.bool (decide ((denC S c1).card < (denC S c2).card)))
  | .nullary n => some (.bool (atoms n))

/-- Models the `diff` methods (dl/features.py:92-93, 130-131, 228-229, 265-266, 288-289). `none` is a failed
assertion about the types of the values. -/
def DFeature.diff : DFeature → FValue → FValue → Option FChange
  | .card _, .int x, .int y => some (intDiff x y)
  | .minDist _ _ _, .int x, .int y => some (intDiff x y)
  | .empirical _, .bool x, .bool y => some (boolDiff x y)
  | .less _ _, .bool x, .bool y => some (boolDiff x y)
  | .nullary _, .bool x, .bool y => some (boolDiff x y)
  | _, _, _ => none

end Tarski

import Verif.DL
import Verif.Syntax
/-! Model of the factory of description-logic concepts and roles: /repo/src/tarski/dl/factory.py:96-213, with the sorts that
the constructors in /repo/src/tarski/dl/concepts.py give to their elements. -/
namespace Tarski

deriving instance DecidableEq for DConcept, DRole

/-- What the factory looks up in the language: the subtype relation (fol.py:351-354) and the sorts of the primitive concepts
(dl/concepts.py:124, 157, 161) and roles (dl/concepts.py:422). -/
structure DLang where
  isSub : String → String → Bool
  cs : String → String
  rs : String → String × String

/-- Models `most_restricted_type` (fol.py:344-349). -/
def DLang.mrt (L : DLang) (s t : String) : Option String :=
  if L.isSub s t then some s else if L.isSub t s then some t else none

/-- Models `are_vertically_related` (fol.py:382-385). -/
def DLang.related (L : DLang) (s t : String) : Bool := L.isSub s t || L.isSub t s

mutual
/-- The `sort` of a concept (dl/concepts.py:78, 101, 124, 157-161, 198, 229, 264, 300, 338, 379), where the sort of conjunctions,
disjunctions and equalities is the one that the factory computes (factory.py:142, 159, 173). `none`: there is no such object,
as the constructor asserts that the sort is a string (dl/concepts.py:50). -/
def sortC (L : DLang) : DConcept → Option String
  | .top => some "object"
  | .bot => some "object"
  | .prim n => some (L.cs n)
  | .not c => match sortC L c with
    | none => none
    | some _ => some "object"
  | .and c1 c2 => match sortC L c1, sortC L c2 with
    | some s, some t => L.mrt s t
    | _, _ => none
  | .or c1 c2 => match sortC L c1, sortC L c2 with
    | some s, some t => L.mrt s t
    | _, _ => none
  | .exists r c => match sortR L r, sortC L c with
    | some s, some _ => some s.1
    | _, _ => none
  | .forall r c => match sortR L r, sortC L c with
    | some s, some _ => some s.1
    | _, _ => none
  | .equal r1 r2 => match sortR L r1, sortR L r2 with
    | some s, some t => L.mrt s.1 t.1
    | _, _ => none
/-- The `sort` of a role (dl/concepts.py:422, 461-462, 494, 527, 570). -/
def sortR (L : DLang) : DRole → Option (String × String)
  | .prim n => some (L.rs n)
  | .inverse r => match sortR L r with
    | none => none
    | some s => some (s.2, s.1)
  | .star r => sortR L r
  | .comp r1 r2 => match sortR L r1, sortR L r2 with
    | some s, some t => some (s.1, t.2)
    | _, _ => none
  | .restrict r c => match sortR L r, sortC L c with
    | some s, some _ => some s
    | _, _ => none
end

mutual
/-- The `size` of a concept (dl/concepts.py:78, 101, 124, 157-161, 198, 229, 264, 300, 338, 379). -/
def sizeC : DConcept → Nat
  | .top => 0
  | .bot => 0
  | .prim _ => 1
  | .not c => 1 + sizeC c
  | .and c1 c2 => 1 + sizeC c1 + sizeC c2
  | .or c1 c2 => 1 + sizeC c1 + sizeC c2
  | .exists r c => 1 + sizeR r + sizeC c
  | .forall r c => 1 + sizeR r + sizeC c
  | .equal r1 r2 => 1 + sizeR r1 + sizeR r2
/-- The `size` of a role (dl/concepts.py:422, 462, 494, 527, 570). -/
def sizeR : DRole → Nat
  | .prim _ => 1
  | .inverse r => 1 + sizeR r
  | .star r => 1 + sizeR r
  | .comp r1 r2 => 1 + sizeR r1 + sizeR r2
  | .restrict r c => 1 + sizeR r + sizeC c
end

mutual
/-- `len(filter_subnodes(x, CompositionRole))` (factory.py:28-30, 208). -/
def compsC : DConcept → Nat
  | .top => 0
  | .bot => 0
  | .prim _ => 0
  | .not c => compsC c
  | .and c1 c2 => compsC c1 + compsC c2
  | .or c1 c2 => compsC c1 + compsC c2
  | .exists r c => compsR r + compsC c
  | .forall r c => compsR r + compsC c
  | .equal r1 r2 => compsR r1 + compsR r2
def compsR : DRole → Nat
  | .prim _ => 0
  | .inverse r => compsR r
  | .star r => compsR r
  | .comp r1 r2 => 1 + compsR r1 + compsR r2
  | .restrict r c => compsR r + compsC c
end

/-- `isinstance(role, RestrictRole)` -/
def DRole.isRestrict : DRole → Bool
  | .restrict _ _ => true
  | _ => false

/-- `isinstance(concept, NotConcept)` -/
def DConcept.isNot : DConcept → Bool
  | .not _ => true
  | _ => false

/-- Models `create_exists_concept` (factory.py:96-114). Arguments without a sort are not objects: they raise. -/
def createExists (L : DLang) (r : DRole) (c : DConcept) : Except Err (Option DConcept) :=
  match sortR L r, sortC L c with
  | some s, some t =>
    if c = .bot then .ok none
    else if L.related s.2 t = false then .ok none
    else if r.isRestrict = true ∧ c = .top then .ok none
    else .ok (some (.exists r c))
  | _, _ => .error .assertion

/-- Models `create_not_concept` (factory.py:116-121). -/
def createNot (L : DLang) (c : DConcept) : Except Err (Option DConcept) :=
  match sortC L c with
  | some _ => if c.isNot then .ok none else .ok (some (.not c))
  | none => .error .assertion

/-- Models `create_forall_concept` (factory.py:123-137). -/
def createForall (L : DLang) (r : DRole) (c : DConcept) : Except Err (Option DConcept) :=
  match sortR L r, sortC L c with
  | some s, some t =>
    if c = .top then .ok none
    else if L.related s.2 t = false then .ok none
    else .ok (some (.forall r c))
  | _, _ => .error .assertion

/-- Models `create_and_concept` (factory.py:139-156). `same` is the value of the test `c1 == c2` (factory.py:144), which holds
only of arguments with the same structure but not of all of these: the test is modelled in DLEq.lean (C105). -/
def createAnd (L : DLang) (same : Bool) (c1 c2 : DConcept) : Except Err (Option DConcept) :=
  match sortC L c1, sortC L c2 with
  | some s, some t =>
    if same then .ok none
    else if (c1 = .top ∨ c1 = .bot) ∨ (c2 = .top ∨ c2 = .bot) then .ok none
    else match L.mrt s t with
      | none => .ok none
      | some _ => .ok (some (.and c1 c2))
  | _, _ => .error .assertion

/-- Models `create_or_concept` (factory.py:158-168), with `same` as above for the test in line 161: without a common sort the constructor of the disjunction fails its
assertion (dl/concepts.py:50). -/
def createOr (L : DLang) (same : Bool) (c1 c2 : DConcept) : Except Err (Option DConcept) :=
  match sortC L c1, sortC L c2 with
  | some s, some t =>
    if same then .ok none
    else if (c1 = .top ∨ c1 = .bot) ∨ (c2 = .top ∨ c2 = .bot) then .ok none
    else match L.mrt s t with
      | none => .error .assertion
      | some _ => .ok (some (.or c1 c2))
  | _, _ => .error .assertion

/-- Models `create_equal_concept` (factory.py:170-178). -/
def createEqual (L : DLang) (r1 r2 : DRole) : Except Err (Option DConcept) :=
  match sortR L r1, sortR L r2 with
  | some s, some t => match L.mrt s.1 t.1 with
    | none => .ok none
    | some _ => .ok (some (.equal r1 r2))
  | _, _ => .error .assertion

/-- Models `create_restrict_role` (factory.py:180-194). -/
def createRestrict (L : DLang) (r : DRole) (c : DConcept) : Except Err (Option DRole) :=
  match sortR L r, sortC L c with
  | some s, some t =>
    if L.related s.2 t = false then .ok none
    else if c = .top ∨ c = .bot then .ok none
    else if r.isRestrict then .ok none
    else .ok (some (.restrict r c))
  | _, _ => .error .assertion

/-- Models `create_composition_role` (factory.py:196-213). -/
def createComp (L : DLang) (r1 r2 : DRole) : Except Err (Option DRole) :=
  match sortR L r1, sortR L r2 with
  | some s, some t =>
    if L.related s.2 t.1 = false then .ok none
    else if compsR (.comp r1 r2) > 2 then .ok none
    else .ok (some (.comp r1 r2))
  | _, _ => .error .assertion

end Tarski

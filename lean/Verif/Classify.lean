import Verif.Flatten
import Verif.Relaxation
import Verif.Nodes
import Verif.CompileNeg
/-! Model of the classification of preconditions, goals and problems: /repo/src/tarski/fstrips/representation.py:83-100, 158-168,
215-272. -/
namespace Tarski

/-- `isinstance(f, Atom) or (isinstance(f, CompoundFormula) and all(test(sub) for sub in f.subformulas))` -/
def atomOrAll (test : Formula → Bool) : Formula → Bool
  | .atom _ _ => true
  | .comp _ _ fs => fs.all test
  | _ => false

/-- Models `is_conjunction_of_literals` (representation.py:215-220). -/
def isConjLiterals (f : Formula) : Bool := atomOrAll isLiteral (flatten f)

/-- Models `is_conjunction_of_positive_atoms` (representation.py:223-230). -/
def isConjAtoms (f : Formula) : Bool := atomOrAll isAtom (flatten f)

mutual
/-- Models `_collect_literals_from_conjunction` (representation.py:244-255): the set that was filled, and the result. -/
def collectLitsGo : Formula → List (Formula × Bool) → List (Formula × Bool) × Bool
  | .atom p ts, acc => (setAdd acc (.atom p ts, true), true)
  | .comp _ .not (.atom p ts :: _), acc => (setAdd acc (.atom p ts, false), true)
  | .comp _ .and fs, acc => collectLitsAll fs acc
  | _, acc => (acc, false)
/-- The loop of lines 250-252. -/
def collectLitsAll : List Formula → List (Formula × Bool) → List (Formula × Bool) × Bool
  | [], acc => (acc, true)
  | f :: fs, acc => match collectLitsGo f acc with
    | (acc', true) => collectLitsAll fs acc'
    | (acc', false) => (acc', false)
end

/-- Models `collect_literals_from_conjunction` (representation.py:233-241). -/
def collectLits (f : Formula) : Option (List (Formula × Bool)) :=
  match collectLitsGo f [] with
  | (s, true) => some s
  | (_, false) => none

/-- What `classify_atom_occurrences_in_formula` returns. -/
structure Occurrences where
  pos : List Formula
  neg : List Formula
  fn : List Node

/-- The loop of `classify_atom_occurrences_in_formula` (representation.py:264-271): comparisons are the builtin
predicates. -/
def classifyLoop : List (Formula × Bool) → Occurrences → Occurrences
  | [], o => o
  | (.atom (.cmp c) ts, _) :: ls, o =>
    classifyLoop ls { o with fn := (uniqueNodes Node.isApp (.f (.atom (.cmp c) ts))).1.foldl setAdd o.fn }
  | (a, true) :: ls, o => classifyLoop ls { o with pos := setAdd o.pos a }
  | (a, false) :: ls, o => classifyLoop ls { o with neg := setAdd o.neg a }

/-- Models `classify_atom_occurrences_in_formula` (representation.py:258-272): iterating over `None` raises. -/
def classifyAtoms (f : Formula) : Except Err Occurrences :=
  match collectLits f with
  | none => .error .typeError
  | some ls => .ok (classifyLoop ls ⟨[], [], []⟩)

/-- Models `is_strips_operator` (representation.py:83-89). -/
def isStripsOperator (a : Operator) : Bool := isConjAtoms a.pre && isStripsEffectSet a.effs

/-- Models `is_strips_problem` (representation.py:92-99). -/
def isStripsProblem (goal : Formula) (as : List Operator) : Bool := isConjAtoms goal && as.all isStripsOperator

end Tarski

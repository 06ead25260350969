import Verif.Syntax
/-! Model of /repo/src/tarski/syntax/transform/simplifications.py. -/
namespace Tarski

/-- Models `unpack_element_subterms` (simplifications.py:6-12): the names of the subterms, all of which must be
constants. -/
def unpackElems : List Term → Except Err (List Name)
  | [] => .ok []
  | .const n _ :: ts => match unpackElems ts with
    | .error e => .error e
    | .ok ns => .ok (n :: ns)
  | _ :: _ => .error .transformation

/-- `[x for x in atom.subterms if isinstance(x, CompoundTerm)]` (simplifications.py:21): symbol and subterms of the
compound terms. -/
def compoundsOf : List Term → List (String × List Term)
  | [] => []
  | .app f ts :: l => (f, ts) :: compoundsOf l
  | _ :: l => compoundsOf l

/-- `[c for c in atom.subterms if isinstance(c, Constant)]` (simplifications.py:22): names of the constants. -/
def constNamesOf : List Term → List Name
  | [] => []
  | .const n _ :: l => n :: constNamesOf l
  | _ :: l => constNamesOf l

/-- Models `unpack_atom` (simplifications.py:15-33). Symbols of predicates and functions are python strings, so a tuple
is a list of names whose first entry is the symbol. -/
def unpackAtom (p : PSym) (ts : List Term) : Except Err (List Name) :=
  match p with
  | .cmp c =>
    if c ≠ .eq then .error .transformation
    else match compoundsOf ts, constNamesOf ts with
      | [(f, us)], [d] => match unpackElems us with
        | .error e => .error e
        | .ok ns => .ok (.str f :: (ns ++ [d]))
      | _, _ => .error .transformation
  | .user n => match unpackElems ts with
    | .error e => .error e
    | .ok ns => .ok (.str n :: ns)

mutual
/-- Models `transform_to_ground_atoms` (simplifications.py:36-51). -/
def toGroundAtoms : Formula → Except Err (List (List Name))
  | .atom p ts => match unpackAtom p ts with
    | .error e => .error e
    | .ok t => .ok [t]
  | .comp _ c fs => if c = .and then toGroundAtomsL fs else .error .transformation
  | .top => .error .transformation
  | .bot => .error .transformation
  | .quant _ _ _ => .error .transformation
/-- The loop of simplifications.py:48-50. -/
def toGroundAtomsL : List Formula → Except Err (List (List Name))
  | [] => .ok []
  | f :: fs => match toGroundAtoms f with
    | .error e => .error e
    | .ok a => match toGroundAtomsL fs with
      | .error e => .error e
      | .ok b => .ok (a ++ b)
end

end Tarski

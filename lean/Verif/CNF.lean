import Verif.NNF
/-! Model of /repo/src/tarski/syntax/transform/cnf.py. -/
namespace Tarski

/-- Second branch of `distribute` (cnf.py:26-31) for a first argument `n1` that is not a
conjunction: the recursive calls keep `n1`, so they stay in this branch.
A conjunction always has two subformulas, the code uses the first two only. -/
def distributeR (n1 : Formula) : Formula → Formula
  | .comp k .and fs =>
    match fs with
    | a :: b :: _ => .comp .tuple .and [distributeR n1 a, distributeR n1 b]
    | _ => .comp .tuple .or [n1, .comp k .and fs]
  | n2 => .comp .tuple .or [n1, n2]

/-- Models `CNFTransformation.distribute` (cnf.py:20-31). -/
def distribute (n1 n2 : Formula) : Formula :=
  match n1 with
  | .comp k .and fs =>
    match fs with
    | a :: b :: _ => .comp .tuple .and [distribute a n2, distribute b n2]
    | _ => distributeR (.comp k .and fs) n2
  | n1 => distributeR n1 n2

mutual
/-- Models `CNFTransformation._convert` (cnf.py:33-56). -/
def cnf : Formula → Except Err Formula
  | .quant _ _ _ => .error .transformation
  | .comp k .not fs => .ok (.comp k .not fs)
  | .comp _ .and fs =>
    match cnfs fs with
    | .error e => .error e
    | .ok (p0 :: p1 :: rest) =>
      .ok (rest.foldl (fun r p => .comp .tuple .and [r, p]) (.comp .tuple .and [p0, p1]))
    | .ok _ => .error .index
  | .comp _ .or fs =>
    match cnfs fs with
    | .error e => .error e
    | .ok (p0 :: p1 :: rest) => .ok (rest.foldl distribute (distribute p0 p1))
    | .ok _ => .error .index
  | .top => .ok .top
  | .bot => .ok .bot
  | .atom p ts => .ok (.atom p ts)
/-- The successive `self._convert(phi.subformulas[k])` of cnf.py:41-44, 49-53. -/
def cnfs : List Formula → Except Err (List Formula)
  | [] => .ok []
  | f :: fs =>
    match cnf f with
    | .error e => .error e
    | .ok g =>
      match cnfs fs with
      | .error e => .error e
      | .ok gs => .ok (g :: gs)
end

/-- Models `to_conjunctive_normal_form` (cnf.py:97-99, 12-18, 81-83). If the NNF of the input is not a
formula (nnf.py:29-33) the result is not one either, or the constructor of `CompoundFormula` raises;
both are the error of `toNNF`. -/
def toCNF (f : Formula) : Except Err Formula :=
  match toNNF f with
  | .error e => .error e
  | .ok g => cnf g

/-- The two mutable attributes used by `collect_clauses` (cnf.py:17-18). -/
structure CState where
  clauses : List (List Formula)
  cur : List Formula

/-- Models `CNFTransformation.collect_clauses` (cnf.py:58-79). `clauses.append(current_clause)`
stores a reference to the current list; it is only appended to later by another literal, which does not
happen for formulas produced by `_convert`, so lists are copied here. -/
def collect : Formula → CState → Except Err CState
  | .quant _ _ _, _ => .error .transformation
  | .comp k .not fs, s => .ok ⟨s.clauses, s.cur ++ [.comp k .not fs]⟩
  | .comp _ .and fs, s =>
    match fs with
    | a :: b :: _ =>
      match collect a ⟨s.clauses, []⟩ with
      | .error e => .error e
      | .ok s1 =>
        match collect b ⟨s1.clauses ++ [s1.cur], []⟩ with
        | .error e => .error e
        | .ok s2 => .ok ⟨s2.clauses ++ [s2.cur], s2.cur⟩
    | _ => .error .index
  | .comp _ .or fs, s =>
    match fs with
    | a :: b :: _ =>
      match collect a s with
      | .error e => .error e
      | .ok s1 => collect b s1
    | _ => .error .index
  | f, s => .ok ⟨s.clauses, s.cur ++ [f]⟩

/-- Models `to_conjunctive_normal_form_clauses` (cnf.py:102-104, 85-88). -/
def toCNFClauses (f : Formula) : Except Err (List (List Formula)) :=
  match toCNF f with
  | .error e => .error e
  | .ok g =>
    match collect g ⟨[], []⟩ with
    | .error e => .error e
    | .ok s => .ok s.clauses

end Tarski

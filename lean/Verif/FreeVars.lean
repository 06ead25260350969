import Verif.Subst
/-! Model of `free_variables` (/repo/src/tarski/syntax/ops.py:53-57) and of the visitor
`CollectFreeVariables` (/repo/src/tarski/syntax/visitors.py:59-81). -/
namespace Tarski

/-- Mutable sets of the visitor (visitors.py:62-64): quantified symrefs and collected free variables,
as duplicate-free lists. -/
structure FVState where
  bound : List Term
  free : List Var

/-- `set.add` -/
def setAdd {α} [DecidableEq α] (l : List α) (x : α) : List α := if x ∈ l then l else x :: l

/-- `set.remove`: KeyError if absent. -/
def setRemove {α} [DecidableEq α] (l : List α) (x : α) : Except Err (List α) :=
  if x ∈ l then .ok (l.erase x) else .error .keyError

/-- Line 78: add every quantified variable. -/
def addAll (b : List Term) (vs : List Term) : List Term := vs.foldl setAdd b

/-- Line 80: remove every quantified variable, in order. -/
def removeAll (b : List Term) : List Term → Except Err (List Term)
  | [] => .ok b
  | v :: vs =>
    match setRemove b v with
    | .error e => .error e
    | .ok b' => removeAll b' vs

mutual
/-- `visit` on terms (visitors.py:67-70, 81-82): variables and compound terms; constants and
if-then-else terms match no branch and are ignored. -/
def fvT : Term → FVState → FVState
  | .var v, s => if Term.var v ∈ s.bound then s else ⟨s.bound, setAdd s.free v⟩
  | .const _ _, s => s
  | .app _ ts, s => fvTs ts s
  | .ite _ _ _, s => s
def fvTs : List Term → FVState → FVState
  | [], s => s
  | t :: ts, s => fvTs ts (fvT t s)
end

mutual
/-- `visit` on formulas (visitors.py:72-82). -/
def fvF : Formula → FVState → Except Err FVState
  | .top, s => .ok s
  | .bot, s => .ok s
  | .atom _ ts, s => .ok (fvTs ts s)
  | .comp _ _ fs, s => fvFs fs s
  | .quant _ vs f, s =>
    match fvF f ⟨addAll s.bound vs, s.free⟩ with
    | .error e => .error e
    | .ok s1 =>
      match removeAll s1.bound vs with
      | .error e => .error e
      | .ok b => .ok ⟨b, s1.free⟩
def fvFs : List Formula → FVState → Except Err FVState
  | [], s => .ok s
  | f :: fs, s =>
    match fvF f s with
    | .error e => .error e
    | .ok s1 => fvFs fs s1
end

/-- Models `free_variables` (ops.py:53-57). -/
def freeVariables (f : Formula) : Except Err (List Var) :=
  match fvF f ⟨[], []⟩ with
  | .error e => .error e
  | .ok s => .ok s.free

/-! ### Specification side -/

mutual
/-- No if-then-else term occurs. -/
def NoIteT : Term → Prop
  | .var _ => True
  | .const _ _ => True
  | .app _ ts => NoIteTs ts
  | .ite _ _ _ => False
def NoIteTs : List Term → Prop
  | [] => True
  | t :: ts => NoIteT t ∧ NoIteTs ts
end

mutual
/-- No if-then-else term occurs in the formula. -/
def NoIteF : Formula → Prop
  | .top => True
  | .bot => True
  | .atom _ ts => NoIteTs ts
  | .comp _ _ fs => NoIteFs fs
  | .quant _ _ f => NoIteF f
def NoIteFs : List Formula → Prop
  | [] => True
  | f :: fs => NoIteF f ∧ NoIteFs fs
end

mutual
/-- No quantifier binds a variable twice, or a variable that is bound again inside its scope. -/
def NoRebind : Formula → Prop
  | .top => True
  | .bot => True
  | .atom _ _ => True
  | .comp _ _ fs => NoRebinds fs
  | .quant _ vs f => vs.Nodup ∧ (∀ v, Term.var v ∈ vs → ¬ BoundF v f) ∧ NoRebind f
def NoRebinds : List Formula → Prop
  | [] => True
  | f :: fs => NoRebind f ∧ NoRebinds fs
end

end Tarski

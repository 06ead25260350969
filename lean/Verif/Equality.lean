import Verif.Induct
/-! Models of syntactic equality and hashing:
/repo/src/tarski/syntax/formulas.py:69-167, 340-348, terms.py:154-158, 200-208, 292-301, 341-345,
util.py:23-30, symrefs.py:15-28. -/
namespace Tarski

mutual
/-- Models `is_syntactically_equal` of the `Term` classes (terms.py:157, 203, 295, 344). Sorts are
compared by name (sorts.py:32-33), function symbols by signature (function.py:47-48), which the name
determines within one language. -/
def termEq : Term → Term → Bool
  | .var v, .var w => v.sym == w.sym && v.sort == w.sort
  | .const n s, .const m t => n == m && s == t
  | .app f ts, .app g us => f == g && termsEq ts us
  | .ite c t e, .ite c' t' e' => formulaEq c c' && (termEq t t' && termEq e e')
  | _, _ => false
termination_by structural t => t
/-- Models `termlists_are_equal` (util.py:23-25). -/
def termsEq : List Term → List Term → Bool
  | [], [] => true
  | t :: ts, u :: us => termEq t u && termsEq ts us
  | _, _ => false
termination_by structural t => t
/-- Models `Formula.__eq__` of the subclasses (formulas.py:75, 88, 124-129, 158-164, 340-345). -/
def formulaEq : Formula → Formula → Bool
  | .top, .top => true
  | .bot, .bot => true
  | .atom p ts, .atom q us => p == q && termsEq ts us
  | .comp k c fs, .comp l d gs => c == d && (k == l && formulasEq fs gs)
  | .quant q vs f, .quant r ws g => q == r && (termsEq vs ws && formulaEq f g)
  | _, _ => false
termination_by structural f => f
/-- Python's elementwise comparison of two containers of formulas (used in formulas.py:128). -/
def formulasEq : List Formula → List Formula → Bool
  | [], [] => true
  | f :: fs, g :: gs => formulaEq f g && formulasEq fs gs
  | _, _ => false
termination_by structural fs => fs
end

/-- The (nested) tuples handed to python's `hash`: equal tuples have equal hashes. -/
inductive HKey where
  | s (x : String)
  | tup (xs : List HKey)
deriving Inhabited

/-- `str(name)` (terms.py:333). -/
def Name.render : Name → String
  | .str s => s
  | .int n => toString n
  | .pyNone => "None"

/-- Class names standing for the enum members / classes in the hashed tuples. -/
def PSym.key : PSym → HKey
  | .cmp c => .tup [.s "builtin", .s (reprStr c)]
  | .user n => .tup [.s "user", .s n]

mutual
/-- Models `Term.hash` (terms.py:154-155, 200-201, 292-293, 341-342). -/
def termHash : Term → HKey
  | .var v => .tup [.s v.sym, .s v.sort]
  | .const n s => .tup [.s n.render, .s s]
  | .app f ts => .tup [.s f, .tup (termsHash ts)]
  | .ite c t e => .tup [.s "ite", formulaHash c, .tup [termHash t, termHash e]]
/-- Models `termlist_hash` (util.py:28-30). -/
def termsHash : List Term → List HKey
  | [] => []
  | t :: ts => termHash t :: termsHash ts
/-- Models `Formula.__hash__` (formulas.py:78, 91, 131-138, 166-167, 347-348); the container kind
of the subformulas does not enter the hash. -/
def formulaHash : Formula → HKey
  | .top => .s "Tautology"
  | .bot => .s "Contradiction"
  | .atom p ts => .tup [.s "Atom", p.key, .tup (termsHash ts)]
  | .comp _ c fs => .tup (.s "CompoundFormula" :: .s (reprStr c) :: formulasHash fs)
  | .quant q vs f => .tup [.s "QuantifiedFormula", .s (reprStr q), .tup (termsHash vs), formulaHash f]
def formulasHash : List Formula → List HKey
  | [] => []
  | f :: fs => formulaHash f :: formulasHash fs
end

mutual
theorem termEq_iff : ∀ t u : Term, termEq t u = true ↔ t = u
  | .var v, u => by cases u <;> simp [termEq]; rename_i w; cases v; cases w; simp
  | .const n s, u => by cases u <;> simp [termEq]
  | .app f ts, u => by
    cases u <;> simp [termEq]
    rename_i g us
    rw [termsEq_iff ts us]; simp
  | .ite c t e, u => by
    cases u <;> simp [termEq]
    rename_i c' t' e'
    rw [formulaEq_iff c c', termEq_iff t t', termEq_iff e e']
theorem termsEq_iff : ∀ ts us : List Term, termsEq ts us = true ↔ ts = us
  | [], us => by cases us <;> simp [termsEq]
  | t :: ts, us => by
    cases us <;> simp [termsEq]
    rename_i u us
    rw [termEq_iff t u, termsEq_iff ts us]
theorem formulaEq_iff : ∀ f g : Formula, formulaEq f g = true ↔ f = g
  | .top, g => by cases g <;> simp [formulaEq]
  | .bot, g => by cases g <;> simp [formulaEq]
  | .atom p ts, g => by
    cases g <;> simp [formulaEq]
    rename_i q us
    rw [termsEq_iff ts us]; simp
  | .comp k c fs, g => by
    cases g <;> simp [formulaEq]
    rename_i l d gs
    rw [formulasEq_iff fs gs]; grind
  | .quant q vs f, g => by
    cases g <;> simp [formulaEq]
    rename_i r ws g
    rw [termsEq_iff vs ws, formulaEq_iff f g]; simp
theorem formulasEq_iff : ∀ fs gs : List Formula, formulasEq fs gs = true ↔ fs = gs
  | [], gs => by cases gs <;> simp [formulasEq]
  | f :: fs, gs => by
    cases gs <;> simp [formulasEq]
    rename_i g gs
    rw [formulaEq_iff f g, formulasEq_iff fs gs]
end

instance : DecidableEq Term := fun t u => decidable_of_iff _ (termEq_iff t u)
instance : DecidableEq Formula := fun t u => decidable_of_iff _ (formulaEq_iff t u)

end Tarski

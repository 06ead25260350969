import Verif.Effects
import Verif.Props.Model
/-! Specification of action effects, independent of `apply_effect`: which ground changes an effect asks for in a
state, and which symbols it reads and writes. -/
namespace Tarski

/-- A ground change of a state. -/
inductive Change where
  | add (p : String) (pt : List Const)
  | del (p : String) (pt : List Const)
  | set (f : String) (pt : List Const) (c : Const)
deriving DecidableEq

/-- The changes an effect asks for in state `r`: conditions and right-hand sides are read in `r`, a universal effect
asks for the changes of every instance of its sub-effects. -/
inductive Produces (L : MLang) (dom : Domains) (r : MState) : Effect → Change → Prop
  | add {c p ts pt} : evFormula L r noSigma c = .ok true → PointDenotes L (ts.map termArg) (L.psorts p) pt →
      Produces L dom r (.add c (.user p) ts) (.add p pt)
  | del {c p ts pt} : evFormula L r noSigma c = .ok true → RefersTo (ts.map termArg) pt →
      Produces L dom r (.del c (.user p) ts) (.del p pt)
  | set {c f ts rhs pt v} : evFormula L r noSigma c = .ok true → evTerm L r noSigma .eval rhs = .ok v →
      builtinFunctionNames.contains f = false → (ts.map termArg).all Arg.isConst = true →
      PointDenotes L (ts.map termArg ++ [.const v]) (L.fsorts f) (pt ++ [v]) →
      Produces L dom r (.assign c f ts rhs) (.set f pt v)
  | univ {c vs es ss s e ch} : evFormula L r noSigma c = .ok true → enumSubsts dom vs = .ok ss → s ∈ ss → e ∈ es →
      Produces L dom r (subE s e) ch → Produces L dom r (.univ c vs es) ch

/-- A predicate or function symbol. -/
inductive Sym where
  | pred (p : String)
  | fn (f : String)
deriving DecidableEq

mutual
/-- The symbol occurs in the term. -/
def UsesT (x : Sym) : Term → Prop
  | .var _ => False
  | .const _ _ => False
  | .app f ts => x = .fn f ∨ UsesTs x ts
  | .ite c t e => UsesF x c ∨ UsesT x t ∨ UsesT x e
def UsesTs (x : Sym) : List Term → Prop
  | [] => False
  | t :: ts => UsesT x t ∨ UsesTs x ts
/-- The symbol occurs in the formula. -/
def UsesF (x : Sym) : Formula → Prop
  | .top => False
  | .bot => False
  | .atom (.user p) ts => x = .pred p ∨ UsesTs x ts
  | .atom (.cmp _) ts => UsesTs x ts
  | .comp _ _ fs => UsesFs x fs
  | .quant _ _ f => UsesF x f
def UsesFs (x : Sym) : List Formula → Prop
  | [] => False
  | f :: fs => UsesF x f ∨ UsesFs x fs
end

mutual
/-- The symbol is read by the effect: it occurs in a condition or in a right-hand side. -/
def Effect.Reads (x : Sym) : Effect → Prop
  | .add c _ _ => UsesF x c
  | .del c _ _ => UsesF x c
  | .lit c _ => UsesF x c
  | .assign c _ _ r => UsesF x c ∨ UsesT x r
  | .univ c _ es => UsesF x c ∨ ReadsAny x es
def ReadsAny (x : Sym) : List Effect → Prop
  | [] => False
  | e :: es => e.Reads x ∨ ReadsAny x es
end

mutual
/-- The symbol is written by the effect: it is the head of an added or deleted atom or of a left-hand side. -/
def Effect.Writes (x : Sym) : Effect → Prop
  | .add _ p _ => ∃ n, p = .user n ∧ x = .pred n
  | .del _ p _ => ∃ n, p = .user n ∧ x = .pred n
  | .lit _ _ => False
  | .assign _ f _ _ => x = .fn f
  | .univ _ _ es => WritesAny x es
def WritesAny (x : Sym) : List Effect → Prop
  | [] => False
  | e :: es => e.Writes x ∨ WritesAny x es
end

/-- Two states give the symbol the same denotation. -/
def SameOn (L : MLang) (m r : MState) : Sym → Prop
  | .pred p => ∀ pt, m.holds L p pt = r.holds L p pt
  | .fn f => ∀ pt, m.value L f pt = r.value L f pt

/-- Two states cannot be told apart by queries. -/
def ObsEq (L : MLang) (m r : MState) : Prop := ∀ x, SameOn L m r x

/-- The symbols written by `a` are not read by `b`. -/
def NoFlow (a b : Effect) : Prop := ∀ x, a.Writes x → ¬ b.Reads x

/-- No instance of a universal effect influences another one. -/
def SelfContained : Effect → Prop
  | .univ c vs es => NoFlow (.univ c vs es) (.univ c vs es)
  | _ => True

theorem readsAny_iff {x es} : ReadsAny x es ↔ ∃ e ∈ es, e.Reads x := by
  induction es with
  | nil => simp [ReadsAny]
  | cons e es ih => simp [ReadsAny, ih]

theorem writesAny_iff {x es} : WritesAny x es ↔ ∃ e ∈ es, e.Writes x := by
  induction es with
  | nil => simp [WritesAny]
  | cons e es ih => simp [WritesAny, ih]

end Tarski
